/-
Specification of the bencode format (BEP 3), independent of the model.
-/
namespace Spec

/-- A bencode value. Dictionaries list their entries in document order. -/
inductive BVal where
  | int (i : Int)
  | str (s : List UInt8)
  | list (l : List BVal)
  | dict (d : List (List UInt8 × BVal))
  deriving Repr

/-- The number denoted by a string of ASCII digits. -/
def value (ds : List UInt8) : Nat := ds.foldl (fun a d => 10 * a + (d.toNat - 48)) 0

/-- `ds` is the base-ten ASCII notation of `n`, without leading zeros. -/
structure IsDecimal (n : Nat) (ds : List UInt8) : Prop where
  nonempty : ds ≠ []
  digits : ∀ d ∈ ds, 48 ≤ d.toNat ∧ d.toNat ≤ 57
  denotes : value ds = n
  noLeadingZero : ds.head? = some 48 → ds = [48]

/-- Integers: decimal, with a minus sign if negative (no `-0`). -/
inductive IsInt : Int → List UInt8 → Prop
  | nonneg {n : Nat} {ds : List UInt8} : IsDecimal n ds → IsInt (n : Int) ds
  | neg {n : Nat} {ds : List UInt8} : 0 < n → IsDecimal n ds → IsInt (-(n : Int)) (45 :: ds)

/-- A byte string `s` in bencode: its length in bytes, a colon, the bytes. -/
def IsStr (s bs : List UInt8) : Prop := ∃ ds, IsDecimal s.length ds ∧ bs = ds ++ 58 :: s

mutual
/-- `IsBencode v bs`: the bytes `bs` are a bencode document for `v` (BEP 3):
`i<int>e`, `<len>:<bytes>`, `l<elements>e`, `d<key value ...>e`. -/
inductive IsBencode : BVal → List UInt8 → Prop
  | int {i bs} : IsInt i bs → IsBencode (.int i) (105 :: bs ++ [101])
  | str {s bs} : IsStr s bs → IsBencode (.str s) bs
  | list {l bs} : IsElems l bs → IsBencode (.list l) (108 :: bs ++ [101])
  | dict {d bs} : IsEntries d bs → IsBencode (.dict d) (100 :: bs ++ [101])

/-- The concatenated documents of a list of values. -/
inductive IsElems : List BVal → List UInt8 → Prop
  | nil : IsElems [] []
  | cons {v l bs bs'} : IsBencode v bs → IsElems l bs' → IsElems (v :: l) (bs ++ bs')

/-- The concatenated key/value documents of a list of entries. -/
inductive IsEntries : List (List UInt8 × BVal) → List UInt8 → Prop
  | nil : IsEntries [] []
  | cons {k v d ks bs bs'} : IsStr k ks → IsBencode v bs → IsEntries d bs' →
      IsEntries ((k, v) :: d) (ks ++ bs ++ bs')
end

mutual
/-- Canonical form: the keys of every dictionary are strictly ascending (as raw byte strings). -/
def BVal.Canonical : BVal → Prop
  | .int _ => True
  | .str _ => True
  | .list l => CanonicalElems l
  | .dict d => (d.map Prod.fst).Pairwise (· < ·) ∧ CanonicalEntries d
def CanonicalElems : List BVal → Prop
  | [] => True
  | v :: t => v.Canonical ∧ CanonicalElems t
def CanonicalEntries : List (List UInt8 × BVal) → Prop
  | [] => True
  | (_, v) :: t => v.Canonical ∧ CanonicalEntries t
end

/-- The last value given for a key. -/
def lastFor (k : List UInt8) (d : List (List UInt8 × BVal)) : Option BVal :=
  (d.reverse.find? (fun e => e.1 == k)).map Prod.snd

/-- The integer last given for a key of a dictionary. -/
def intFor (k : List UInt8) (d : List (List UInt8 × BVal)) : Option Nat :=
  match lastFor k d with
  | some (.int i) => some i.toNat
  | _ => none

/-- The dictionary last given for a key, empty if there is none. -/
def dictFor (k : List UInt8) (d : List (List UInt8 × BVal)) : List (List UInt8 × BVal) :=
  match lastFor k d with
  | some (.dict e) => e
  | _ => []

end Spec
