/-
Vocabulary for what peers say they have.
-/
import Verif.Spec.Download

namespace Spec
open RustBit

/-- Bit `i` of a bitfield, the most significant bit of the first byte being bit 0 (BEP 3). -/
def bitOf (b : Bytes) (i : Nat) : Bool := ((b.getD (i / 8) 0).toNat / 2 ^ (7 - i % 8)) % 2 = 1

/-- The peer has said that it has piece `i`: in a bitfield, or (whatever it is) in a `have` message. -/
def Offered (i : Nat) (log : List Ev) : Prop :=
  ∃ m, Ev.got m ∈ log ∧ (m.id = 4 ∨ ∃ b, m.content = .bitfield b ∧ bitOf b i = true)

/-- Two reads yield the same, or two `have` messages (id 4) or two bitfields (id 5) that may differ in every other way. -/
def SameRead (a b : Option (Bytes × UInt8 × Nat)) : Prop :=
  a = b ∨ ∃ x y id n k, a = some (x, id, n) ∧ b = some (y, id, k) ∧ (id = 4 ∨ id = 5)

/-- Two connections cannot be told apart, but for what the peer says it has, in `n` operations: reading, or writing, which fails on both or on neither. -/
def AlikeFor : Nat → Net → Conn → Net → Conn → Prop
  | 0, _, _, _, _ => True
  | n + 1, net, c, net', c' =>
    SameRead (readStream net c).1 (readStream net' c').1 ∧ AlikeFor n net (readStream net c).2 net' (readStream net' c').2 ∧
    (c.writeAll net).1 = (c'.writeAll net').1 ∧ AlikeFor n net (c.writeAll net).2 net' (c'.writeAll net').2

/-- Two connections that cannot be told apart but for what the peer says it has. -/
def Alike (net : Net) (c : Conn) (net' : Net) (c' : Conn) : Prop := ∀ n, AlikeFor n net c net' c'

/-- The same whole messages, but for the `have` messages and bitfields, which may say (and be as long as) anything. -/
inductive SaySame : Bytes → Bytes → Prop
  | nil : SaySame [] []
  | handshake {hs a b} : hs.length = 68 → hs.head? = some 19 → SaySame a b → SaySame (hs ++ a) (hs ++ b)
  | frame {id body frame a b} : IsFrame id body frame → frame.head? ≠ some 19 → SaySame a b → SaySame (frame ++ a) (frame ++ b)
  | says {id x y f g a b} : id = 4 ∨ id = 5 → IsFrame id x f → IsFrame id y g → f.head? ≠ some 19 → g.head? ≠ some 19 → SaySame a b →
      SaySame (f ++ a) (g ++ b)

end Spec
