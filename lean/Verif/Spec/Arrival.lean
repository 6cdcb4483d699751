/-
When the bytes of a message must be there for it to be read.
-/
import Verif.Spec.Stream

namespace Spec
open RustBit

/-- What has come by the end of the `k`-th call, counted from the connection `c`, had nothing been taken. -/
def seen (net : Net) (c : Conn) (k : Nat) : Bytes := c.buf ++ arrivals net c.t k

/-- Between `c` and `c'` exactly the first `n` bytes have been taken off the connection. -/
def Took (net : Net) (c c' : Conn) (n : Nat) : Prop :=
  ∃ k, c'.t = c.t + k ∧ n ≤ (seen net c k).length ∧ c'.buf = (seen net c k).drop n

/-- A message of `size` bytes arrives in time for a read: something by the second call, the length by the fourth, the id by the fifth, and the
rest by the 44th. -/
def InTime (net : Net) (c : Conn) (size : Nat) : Prop :=
  seen net c 2 ≠ [] ∧ 4 ≤ (seen net c 4).length ∧ 5 ≤ (seen net c 5).length ∧ size ≤ (seen net c 44).length

end Spec
