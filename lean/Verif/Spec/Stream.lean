/-
Vocabulary for statements about connections: the bytes that arrive over time.
-/
import Verif.Model.Stream
import Verif.Spec.Messages

namespace Spec
open RustBit

/-- The bytes that arrive during `k` system calls from call number `t` on. -/
def arrivals (net : Net) (t : Nat) : Nat → Bytes
  | 0 => []
  | k + 1 => (net t).arrive ++ arrivals net (t + 1) k

/-- None of the `k` system calls from number `t` on fails. -/
def NoFailure (net : Net) (t k : Nat) : Prop := ∀ i, i < k → (net (t + i)).kind ≠ .fail

/-- The bytes in the receive buffer followed by those still to come agree with `s`: whatever has been
received at any later time is a prefix of `s` or begins with `s`. -/
def Delivers (net : Net) (c : Conn) (s : Bytes) : Prop :=
  ∀ k, (c.buf ++ arrivals net c.t k) <+: s ∨ s <+: (c.buf ++ arrivals net c.t k)

end Spec
