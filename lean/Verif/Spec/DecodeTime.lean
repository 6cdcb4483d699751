/-
What decoding a document takes, by what the document stands for.
-/
import Verif.Spec.Bencode

namespace Spec

/-- The number of decimal digits of a number. -/
def width (n : Nat) : Nat := if n < 10 then 1 else width (n / 10) + 1
decreasing_by omega

mutual
/-- Every value: 1. Every digit of a number: 3, as it is looked at, checked and converted. What follows the digits: 1. Every byte of a string: 1, as it is copied. The
end of a list or dictionary: 1. -/
def steps : BVal → Nat
  | .int i => 1 + (3 * width i.toNat + 1)
  | .str s => 1 + (3 * width s.length + 1) + s.length
  | .list l => 1 + stepsElems l + 1
  | .dict d => 1 + stepsEntries d + 1
/-- Every element: 1. -/
def stepsElems : List BVal → Nat
  | [] => 0
  | v :: t => 1 + steps v + stepsElems t
/-- Every entry: 1. Every byte of a key: 4, as it is copied twice, checked, and hashed. -/
def stepsEntries : List (List UInt8 × BVal) → Nat
  | [] => 0
  | (k, v) :: t => 1 + (3 * width k.length + 1) + 4 * k.length + steps v + stepsEntries t
end

end Spec
