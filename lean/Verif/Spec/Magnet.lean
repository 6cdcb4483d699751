/-
Vocabulary for what magnet links are taken for, whatever characters they have.
-/
import Verif.Model.Prelude

namespace Spec
open RustBit

/-- What a character counts as: letters of either case on from ten, all others by their distance from `0`, reckoned modulo 256. -/
def charValue (c : Nat) : Nat :=
  if 65 ≤ c ∧ c ≤ 90 then c - 55 else if 97 ≤ c ∧ c ≤ 122 then c - 87 else (c + 208) % 256

/-- Bytes as pairs of characters stand for them: the first character moved up by four bits, what does not fit being lost, or'ed with the second. -/
inductive Loose : Bytes → Bytes → Prop
  | nil : Loose [] []
  | cons {b x y : UInt8} {bytes text : Bytes} (hb : b.toNat = (charValue x.toNat * 16 % 256) ||| charValue y.toNat) (h : Loose bytes text) :
      Loose (b :: bytes) (x :: y :: text)

end Spec
