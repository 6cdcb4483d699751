/-
Specification of a torrent's info dictionary (BEP 3) and of hexadecimal info hashes.
-/
import Verif.Spec.BencodeRel
import Verif.Model.Info

namespace Spec
open RustBit

/-- A file entry: `{"length": n, "path": [...]}`. -/
def fileDict (f : File) : BVal :=
  .dict [(b!"length", .int f.length), (b!"path", .list (f.path.map .str))]

/-- The info dictionary of BEP 3 with the five fields the client knows. -/
def infoDict (i : Info) : BVal :=
  .dict ((i.files.map fun fs => (b!"files", BVal.list (fs.map fileDict))).toList ++
    (i.length.map fun (n : Nat) => (b!"length", BVal.int (n : Int))).toList ++
    [(b!"name", .str i.name), (b!"piece length", .int i.pieceLength), (b!"pieces", .str i.pieces)])

/-- The values representable in the client: 64-bit numbers. -/
structure InfoFits (i : Info) : Prop where
  name : i.name.length < 2 ^ 64
  pieces : i.pieces.length < 2 ^ 64
  pieceLength : i.pieceLength < 2 ^ 64
  length : ∀ n, i.length = some n → n < 2 ^ 64
  files : ∀ fs, i.files = some fs → ∀ f ∈ fs, f.length < 2 ^ 64 ∧ ∀ p ∈ f.path, p.length < 2 ^ 64

/-- No text field is empty and all of them are text. -/
structure InfoNonempty (i : Info) : Prop where
  name : i.name ≠ [] ∧ validUtf8 i.name = true
  pieces : i.pieces ≠ []
  files : ∀ fs, i.files = some fs → ∀ f ∈ fs, ∀ p ∈ f.path, p ≠ [] ∧ validUtf8 p = true

/-- The text fields are text (true of every `Info`: they are `String`s). -/
structure InfoText (i : Info) : Prop where
  name : validUtf8 i.name = true
  files : ∀ fs ∈ i.files, ∀ f ∈ fs, ∀ p ∈ f.path, validUtf8 p = true

/-- All text fields are ASCII. -/
structure InfoAscii (i : Info) : Prop where
  name : Ascii i.name
  files : ∀ fs, i.files = some fs → ∀ f ∈ fs, ∀ p ∈ f.path, Ascii p

/-- `c` is a hexadecimal digit, of either case, with value `n`. -/
inductive HexDigit : UInt8 → Nat → Prop
  | dec {n : Nat} : n < 10 → HexDigit (UInt8.ofNat (48 + n)) n
  | upper {n : Nat} : 10 ≤ n → n < 16 → HexDigit (UInt8.ofNat (65 + (n - 10))) n
  | lower {n : Nat} : 10 ≤ n → n < 16 → HexDigit (UInt8.ofNat (97 + (n - 10))) n

/-- `cs` is a hexadecimal notation of the bytes `bs`, two digits per byte, in any letter case. -/
inductive Hex : List UInt8 → List UInt8 → Prop
  | nil : Hex [] []
  | cons {b : UInt8} {x y : UInt8} {bs cs} : HexDigit x (b.toNat / 16) → HexDigit y (b.toNat % 16) →
      Hex bs cs → Hex (b :: bs) (x :: y :: cs)

end Spec
