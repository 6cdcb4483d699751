/-
Specification of made-up names: letters and digits drawn from a source of 32-bit words.
-/

namespace Spec

/-- The letters and digits, numbered: `A` to `Z`, `a` to `z`, `0` to `9`. -/
def letter (k : Nat) : UInt8 :=
  if k < 26 then UInt8.ofNat (65 + k) else if k < 52 then UInt8.ofNat (97 + (k - 26)) else UInt8.ofNat (48 + (k - 52))

/-- The letter a 32-bit word stands for: the words are cut into 64 intervals of the same size, of which the last two stand for nothing. -/
def letterOf (w : Nat) : Option UInt8 := if w / 2 ^ 26 < 62 then some (letter (w / 2 ^ 26)) else none

/-- The words number `i` to `j - 1` of a source. -/
def wordsFrom (rng : Nat → UInt32) (i j : Nat) : List Nat := (List.range' i (j - i)).map fun k => (rng k).toNat

/-- The letters that words stand for. -/
def lettersOf (ws : List Nat) : List UInt8 := ws.filterMap letterOf

end Spec
