import Verif.Spec.BencodeRel

/-!
How deep a document is nested, and how deep the beginning of an arbitrary input is.
-/

namespace Spec
open RustBit

mutual
/-- How deep a value is nested: 1 for numbers and strings. -/
def nesting : BVal → Nat
  | .int _ => 1
  | .str _ => 1
  | .list l => nestingElems l + 1
  | .dict d => nestingEntries d + 1
def nestingElems : List BVal → Nat
  | [] => 0
  | v :: t => max (nesting v) (nestingElems t)
def nestingEntries : List (Bytes × BVal) → Nat
  | [] => 0
  | (_, v) :: t => max (nesting v) (nestingEntries t)
end

mutual
/-- `Deep n c`: after acceptable elements and entries there is a place at nesting depth `n`, whatever follows it. -/
inductive Deep : Nat → Bytes → Prop
  | here {n c} : n ≤ 1 → Deep n c
  | list {n c} : DeepElems n c → Deep (n + 1) (108 :: c)
  | dict {n c} : DeepEntries n c → Deep (n + 1) (100 :: c)
inductive DeepElems : Nat → Bytes → Prop
  | inner {n b c} : b ≠ 101 → Deep n (b :: c) → DeepElems n (b :: c)
  | next {n v bs c} : Lenient v bs → DeepElems n c → DeepElems n (bs ++ c)
inductive DeepEntries : Nat → Bytes → Prop
  | inner {n k ks c} : LenientStr k ks → validUtf8 k = true → Deep n c → DeepEntries n (ks ++ c)
  | next {n k v ks bs c} : LenientStr k ks → validUtf8 k = true → Lenient v bs → DeepEntries n c →
      DeepEntries n (ks ++ bs ++ c)
  | noValue {n k ks b c} : LenientStr k ks → validUtf8 k = true → ¬ StartsValue b → DeepEntries n (b :: c) →
      DeepEntries n (ks ++ b :: c)
end

/-- A list in a list in a list, and so on: nested `n + 1` deep, `2 * n + 2` bytes long. -/
def nest : Nat → BVal
  | 0 => .list []
  | n + 1 => .list [nest n]

/-- Its document. -/
def nestDoc (n : Nat) : Bytes := List.replicate (n + 1) 108 ++ List.replicate (n + 1) 101

end Spec
