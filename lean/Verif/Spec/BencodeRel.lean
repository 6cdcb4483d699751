/-
Relation between the Rust values (`Metainfo`, encodable values) and bencode values.
-/
import Verif.Spec.Bencode
import Verif.Model.Bencode

namespace Spec
open RustBit

mutual
/-- The Rust value of a bencode value; a later entry for a key replaces the earlier one. -/
def meaning : BVal → Metainfo
  | .int i => .integer i.toNat
  | .str s => .string s
  | .list l => .list (meaningElems l)
  | .dict d => .dictionary (meaningEntries [] d)
def meaningElems : List BVal → List Metainfo
  | [] => []
  | v :: t => meaning v :: meaningElems t
def meaningEntries : List (Bytes × Metainfo) → List (Bytes × BVal) → List (Bytes × Metainfo)
  | acc, [] => acc
  | acc, (k, v) :: t => meaningEntries (mapInsert acc k (meaning v)) t
end

mutual
/-- The Rust value of a bencode value whose dictionaries have distinct keys: entry by entry. -/
def toMeta : BVal → Metainfo
  | .int i => .integer i.toNat
  | .str s => .string s
  | .list l => .list (toMetaElems l)
  | .dict d => .dictionary (toMetaEntries d)
def toMetaElems : List BVal → List Metainfo
  | [] => []
  | v :: t => toMeta v :: toMetaElems t
def toMetaEntries : List (Bytes × BVal) → List (Bytes × Metainfo)
  | [] => []
  | (k, v) :: t => (k, toMeta v) :: toMetaEntries t
end

mutual
/-- No dictionary has two entries for one key. -/
def DistinctKeys : BVal → Prop
  | .int _ => True
  | .str _ => True
  | .list l => DistinctKeysElems l
  | .dict d => (d.map Prod.fst).Nodup ∧ DistinctKeysEntries d
def DistinctKeysElems : List BVal → Prop
  | [] => True
  | v :: t => DistinctKeys v ∧ DistinctKeysElems t
def DistinctKeysEntries : List (Bytes × BVal) → Prop
  | [] => True
  | (_, v) :: t => DistinctKeys v ∧ DistinctKeysEntries t
end

mutual
/-- What the decoder of the repository supports: integers are unsigned 64-bit, keys are text, and
the empty string does not occur as a value (it may occur as a key). -/
def Readable : BVal → Prop
  | .int i => 0 ≤ i ∧ i < 2 ^ 64
  | .str s => s ≠ [] ∧ s.length < 2 ^ 64
  | .list l => ReadableElems l
  | .dict d => ReadableEntries d
def ReadableElems : List BVal → Prop
  | [] => True
  | v :: t => Readable v ∧ ReadableElems t
def ReadableEntries : List (Bytes × BVal) → Prop
  | [] => True
  | (k, v) :: t => validUtf8 k = true ∧ k.length < 2 ^ 64 ∧ Readable v ∧ ReadableEntries t
end

/-- Insertion of an entry before the first entry whose key is not smaller. -/
def insertByKey {α : Type} (e : Bytes × α) : List (Bytes × α) → List (Bytes × α)
  | [] => [e]
  | x :: t => if e.1 ≤ x.1 then e :: x :: t else x :: insertByKey e t

/-- The entries in ascending key order. -/
def sortByKey {α : Type} : List (Bytes × α) → List (Bytes × α)
  | [] => []
  | e :: t => insertByKey e (sortByKey t)

/-- Text all of whose characters are ASCII. -/
def Ascii (s : Bytes) : Prop := ∀ b ∈ s, b < 0x80

/-- `None`, possibly wrapped: bencode has no such value. -/
def absent : EVal → Bool
  | .opt none => true
  | .opt (some v) => absent v
  | _ => false

mutual
/-- The bencode value an encodable Rust value stands for; absent elements of a list are left out. -/
def sem : EVal → BVal
  | .str s => .str s
  | .usize n => .int n
  | .bytes b => .str b
  | .vec l => .list (semElems l)
  | .map m => .dict (sortByKey (semEntries m))
  | .opt none => .str []
  | .opt (some v) => sem v
def semElems : List EVal → List BVal
  | [] => []
  | v :: t => if absent v then semElems t else sem v :: semElems t
def semEntries : List (Bytes × EVal) → List (Bytes × BVal)
  | [] => []
  | (k, v) :: t => (k, sem v) :: semEntries t
end

mutual
/-- Encodable values with ASCII text, no `None` other than as an element of a list, and maps with one
entry per key. -/
def Encodable : EVal → Prop
  | .str s => Ascii s
  | .usize _ => True
  | .bytes _ => True
  | .vec l => EncodableElems l
  | .map m => (m.map Prod.fst).Nodup ∧ EncodableEntries m
  | .opt none => False
  | .opt (some v) => Encodable v
def EncodableElems : List EVal → Prop
  | [] => True
  | v :: t => (absent v = true ∨ Encodable v) ∧ EncodableElems t
def EncodableEntries : List (Bytes × EVal) → Prop
  | [] => True
  | (k, v) :: t => Ascii k ∧ Encodable v ∧ EncodableEntries t
end

mutual
/-- Every map has one entry per key (true of every `HashMap`). -/
def OneEntryPerKey : EVal → Prop
  | .str _ => True
  | .usize _ => True
  | .bytes _ => True
  | .vec l => OneEntryPerKeyElems l
  | .map m => (m.map Prod.fst).Nodup ∧ OneEntryPerKeyEntries m
  | .opt none => True
  | .opt (some v) => OneEntryPerKey v
def OneEntryPerKeyElems : List EVal → Prop
  | [] => True
  | v :: t => OneEntryPerKey v ∧ OneEntryPerKeyElems t
def OneEntryPerKeyEntries : List (Bytes × EVal) → Prop
  | [] => True
  | (_, v) :: t => OneEntryPerKey v ∧ OneEntryPerKeyEntries t
end

mutual
/-- All text in the value is UTF-8 (true of every `String`). -/
def TextOk : EVal → Prop
  | .str s => validUtf8 s = true
  | .usize _ => True
  | .bytes _ => True
  | .vec l => TextOkElems l
  | .map m => TextOkEntries m
  | .opt none => True
  | .opt (some v) => TextOk v
def TextOkElems : List EVal → Prop
  | [] => True
  | v :: t => TextOk v ∧ TextOkElems t
def TextOkEntries : List (Bytes × EVal) → Prop
  | [] => True
  | (k, v) :: t => validUtf8 k = true ∧ TextOk v ∧ TextOkEntries t
end

mutual
/-- No `None` other than as an element of a list. -/
def Complete : EVal → Prop
  | .str _ => True
  | .usize _ => True
  | .bytes _ => True
  | .vec l => CompleteElems l
  | .map m => CompleteEntries m
  | .opt none => False
  | .opt (some v) => Complete v
def CompleteElems : List EVal → Prop
  | [] => True
  | v :: t => (absent v = true ∨ Complete v) ∧ CompleteElems t
def CompleteEntries : List (Bytes × EVal) → Prop
  | [] => True
  | (_, v) :: t => Complete v ∧ CompleteEntries t
end

/-- The Rust types with an `Encode` instance. -/
inductive Ty where
  | str
  | usize
  | bytes
  | vec (t : Ty)
  | map (t : Ty)
  | opt (t : Ty)

/-- The value has the type: lists and maps hold values of one type. -/
def HasType : Ty → EVal → Prop
  | .str, .str _ => True
  | .usize, .usize _ => True
  | .bytes, .bytes _ => True
  | .vec t, .vec l => ∀ x ∈ l, HasType t x
  | .map t, .map m => ∀ e ∈ m, HasType t e.2
  | .opt _, .opt none => True
  | .opt t, .opt (some v) => HasType t v
  | _, _ => False

mutual
/-- The same Rust value, the hash maps being iterated in possibly different orders. -/
inductive SameMaps : EVal → EVal → Prop
  | refl {x} : SameMaps x x
  | vec {l l'} : SameMapsElems l l' → SameMaps (.vec l) (.vec l')
  | map {m m' m''} : SameMapsEntries m m' → m'.Perm m'' → SameMaps (.map m) (.map m'')
  | opt {x y} : SameMaps x y → SameMaps (.opt (some x)) (.opt (some y))
inductive SameMapsElems : List EVal → List EVal → Prop
  | nil : SameMapsElems [] []
  | cons {x y l l'} : SameMaps x y → SameMapsElems l l' → SameMapsElems (x :: l) (y :: l')
inductive SameMapsEntries : List (Bytes × EVal) → List (Bytes × EVal) → Prop
  | nil : SameMapsEntries [] []
  | cons {k x y l l'} : SameMaps x y → SameMapsEntries l l' →
      SameMapsEntries ((k, x) :: l) ((k, y) :: l')
end

mutual
/-- The documents the decoder accepts: like bencode, except that numbers may have leading zeros, the
byte after a number may be any non-digit, and a dictionary key may lack its value (if it is
followed by the end of the dictionary or by a key that begins with a zero). Negative numbers
are not accepted, nor are strings with a leading zero (the empty string in particular) other than as keys. -/
inductive Lenient : Metainfo → Bytes → Prop
  | int {ds : Bytes} {x : UInt8} : ds ≠ [] → (∀ d ∈ ds, isDigit d = true) → isDigit x = false →
      value ds < 2 ^ 64 → Lenient (.integer (value ds)) (105 :: (ds ++ [x]))
  | str {s bs : Bytes} : LenientStr s bs → bs.head? ≠ some 48 → Lenient (.string s) bs
  | list {l bs} : LenientElems l bs → Lenient (.list l) (108 :: (bs ++ [101]))
  | dict {m bs} : LenientEntries [] m bs → Lenient (.dictionary m) (100 :: (bs ++ [101]))
inductive LenientStr : Bytes → Bytes → Prop
  | mk {ds : Bytes} {x : UInt8} {s : Bytes} : ds ≠ [] → (∀ d ∈ ds, isDigit d = true) →
      isDigit x = false → value ds = s.length → s.length < 2 ^ 64 → LenientStr s (ds ++ x :: s)
inductive LenientElems : List Metainfo → Bytes → Prop
  | nil : LenientElems [] []
  | cons {v l bs bs'} : Lenient v bs → LenientElems l bs' → LenientElems (v :: l) (bs ++ bs')
/-- `LenientEntries acc m bs`: reading the entries `bs` into the map `acc` gives the map `m`. -/
inductive LenientEntries : List (Bytes × Metainfo) → List (Bytes × Metainfo) → Bytes → Prop
  | nil {m} : LenientEntries m m []
  | cons {acc m k v ks bs bs'} : LenientStr k ks → validUtf8 k = true → Lenient v bs →
      LenientEntries (mapInsert acc k v) m bs' → LenientEntries acc m (ks ++ bs ++ bs')
  | noValue {acc m k ks bs'} : LenientStr k ks → validUtf8 k = true → (bs' = [] ∨ bs'.head? = some 48) →
      LenientEntries (mapInsert acc k .nothing) m bs' → LenientEntries acc m (ks ++ bs')
end

/-- The bytes `i`, `l`, `d` and `1`–`9`, with which the values the decoder knows begin. -/
def StartsValue (b : UInt8) : Prop := b = 105 ∨ b = 108 ∨ b = 100 ∨ (49 ≤ b ∧ b ≤ 57)

mutual
/-- Inputs on which the decoder loops for ever: inside a list, after acceptable elements, there is a byte that
neither begins a value nor ends the list. -/
inductive Stuck : Bytes → Prop
  | list {c} : StuckElems c → Stuck (108 :: c)
  | dict {c} : StuckEntries c → Stuck (100 :: c)
inductive StuckElems : Bytes → Prop
  | here {b c} : b ≠ 101 → ¬ StartsValue b → StuckElems (b :: c)
  | inner {c} : Stuck c → StuckElems c
  | next {v bs c} : Lenient v bs → StuckElems c → StuckElems (bs ++ c)
inductive StuckEntries : Bytes → Prop
  | inner {k ks c} : LenientStr k ks → validUtf8 k = true → Stuck c → StuckEntries (ks ++ c)
  | next {k v ks bs c} : LenientStr k ks → validUtf8 k = true → Lenient v bs → StuckEntries c →
      StuckEntries (ks ++ bs ++ c)
  | noValue {k ks b c} : LenientStr k ks → validUtf8 k = true → ¬ StartsValue b → StuckEntries (b :: c) →
      StuckEntries (ks ++ b :: c)
end

/-- The input ends inside a string: in the number, or in the bytes it announces. -/
inductive CutStr : Bytes → Prop
  | number {ds} : (∀ d ∈ ds, isDigit d = true) → CutStr ds
  | bytes {ds x rest} : ds ≠ [] → (∀ d ∈ ds, isDigit d = true) → isDigit x = false → value ds < 2 ^ 64 →
      rest.length < value ds → CutStr (ds ++ x :: rest)

mutual
/-- Inputs that end too early: in a number, in a string, or before the end of a list or a dictionary. -/
inductive Cut : Bytes → Prop
  | int {ds} : (∀ d ∈ ds, isDigit d = true) → Cut (105 :: ds)
  | str {b c} : 49 ≤ b → b ≤ 57 → CutStr (b :: c) → Cut (b :: c)
  | list {c} : CutElems c → Cut (108 :: c)
  | dict {c} : CutEntries c → Cut (100 :: c)
inductive CutElems : Bytes → Prop
  | «end» : CutElems []
  | inner {c} : Cut c → CutElems c
  | next {v bs c} : Lenient v bs → CutElems c → CutElems (bs ++ c)
inductive CutEntries : Bytes → Prop
  | «end» : CutEntries []
  | key {c} : CutStr c → CutEntries c
  | inner {k ks c} : LenientStr k ks → validUtf8 k = true → Cut c → CutEntries (ks ++ c)
  | next {k v ks bs c} : LenientStr k ks → validUtf8 k = true → Lenient v bs → CutEntries c →
      CutEntries (ks ++ bs ++ c)
  | noValue {k ks c} : LenientStr k ks → validUtf8 k = true → (∀ b ∈ c.head?, ¬ StartsValue b) → CutEntries c →
      CutEntries (ks ++ c)
end

mutual
/-- Every integer in a decoded value fits in 64 bits. -/
def IntsFit : Metainfo → Prop
  | .integer n => n < 2 ^ 64
  | .list l => IntsFitElems l
  | .string _ => True
  | .dictionary d => IntsFitEntries d
  | .nothing => True
def IntsFitElems : List Metainfo → Prop
  | [] => True
  | v :: t => IntsFit v ∧ IntsFitElems t
def IntsFitEntries : List (Bytes × Metainfo) → Prop
  | [] => True
  | (_, v) :: t => IntsFit v ∧ IntsFitEntries t
end

mutual
/-- Every dictionary in a decoded value has at most one entry per key. -/
def KeysUnique : Metainfo → Prop
  | .integer _ => True
  | .list l => KeysUniqueElems l
  | .string _ => True
  | .dictionary d => (d.map Prod.fst).Nodup ∧ KeysUniqueEntries d
  | .nothing => True
def KeysUniqueElems : List Metainfo → Prop
  | [] => True
  | v :: t => KeysUnique v ∧ KeysUniqueElems t
def KeysUniqueEntries : List (Bytes × Metainfo) → Prop
  | [] => True
  | (_, v) :: t => KeysUnique v ∧ KeysUniqueEntries t
end

end Spec
