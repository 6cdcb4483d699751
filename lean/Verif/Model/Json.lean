/-
The part of `serde_json` (1.0) used by the metadata cache: writing a value with the compact formatter, and parsing a
document. Whether `serde_json::from_str::<Info>` succeeds does not depend on the order in which syntax and types are
checked, so the document is parsed first and the typed value extracted from it afterwards.
-/
import Verif.Model.Tracker

namespace RustBit

/-- A JSON document as far as deserialisation of `Info` can tell: `num (some n)` is an integer from 0 to 2^64 - 1, `num none` any other
number; `str none` is a string with a lone surrogate escape (acceptable only where it is ignored). -/
inductive Json where
  | null
  | bool (b : Bool)
  | num (n : Option Nat)
  | str (s : Option Bytes)
  | arr (l : List Json)
  | obj (m : List (Option Bytes × Json))
  deriving Repr

namespace Json

/-! ### Writing -/

/-- Lower-case hexadecimal digit of a number below 16. -/
def hexLower (n : UInt8) : UInt8 := if n < 10 then 48 + n else 87 + n

/-- `serde_json::ser::format_escaped_str_contents`, one byte. -/
def escapeByte (b : UInt8) : Bytes :=
  if b = 34 then b!"\\\"" else if b = 92 then b!"\\\\"
  else if b = 8 then b!"\\b" else if b = 9 then b!"\\t" else if b = 10 then b!"\\n"
  else if b = 12 then b!"\\f" else if b = 13 then b!"\\r"
  else if b < 32 then b!"\\u00" ++ [hexLower (b >>> 4), hexLower (b &&& 15)]
  else [b]

/-- A string with quotes. -/
def printStr (s : Bytes) : Bytes := 34 :: (s.flatMap escapeByte ++ [34])

mutual
/-- `serde_json::to_writer` (compact formatter): no white space. -/
def print : Json → Bytes
  | null => b!"null"
  | bool true => b!"true"
  | bool false => b!"false"
  | num n => decimal (n.getD 0)
  | str s => printStr (s.getD [])
  | arr l => 91 :: printElems l
  | obj m => 123 :: printMembers m
/-- The elements of an array and the closing bracket. -/
def printElems : List Json → Bytes
  | [] => [93]
  | [v] => v.print ++ [93]
  | v :: t => v.print ++ 44 :: printElems t
/-- The members of an object and the closing brace. -/
def printMembers : List (Option Bytes × Json) → Bytes
  | [] => [125]
  | [(k, v)] => printStr (k.getD []) ++ 58 :: v.print ++ [125]
  | (k, v) :: t => printStr (k.getD []) ++ 58 :: v.print ++ 44 :: printMembers t
end

/-! ### Parsing -/

/-- `parse_whitespace`. -/
def isWs (b : UInt8) : Bool := b == 32 || b == 10 || b == 9 || b == 13

def skipWs (s : Bytes) : Bytes := s.dropWhile isWs

/-- UTF-8 encoding of a code point. -/
def utf8Of (n : Nat) : Bytes :=
  if n < 0x80 then [UInt8.ofNat n]
  else if n < 0x800 then [UInt8.ofNat (0xC0 + n / 64), UInt8.ofNat (0x80 + n % 64)]
  else if n < 0x10000 then [UInt8.ofNat (0xE0 + n / 4096), UInt8.ofNat (0x80 + n / 64 % 64), UInt8.ofNat (0x80 + n % 64)]
  else [UInt8.ofNat (0xF0 + n / 262144), UInt8.ofNat (0x80 + n / 4096 % 64), UInt8.ofNat (0x80 + n / 64 % 64),
    UInt8.ofNat (0x80 + n % 64)]

/-- Value of a hexadecimal digit of either case. -/
def hexDigit (c : UInt8) : Option Nat :=
  if 48 ≤ c && c ≤ 57 then some (c.toNat - 48)
  else if 65 ≤ c && c ≤ 70 then some (c.toNat - 55)
  else if 97 ≤ c && c ≤ 102 then some (c.toNat - 87)
  else none

/-- `decode_hex_escape`: four hexadecimal digits. -/
def hex4 (a b c d : UInt8) : Option Nat := do
  let a ← hexDigit a
  let b ← hexDigit b
  let c ← hexDigit c
  let d ← hexDigit d
  some (((a * 16 + b) * 16 + c) * 16 + d)

/-- The characters after a backslash other than `u`. -/
def simpleEscape (c : UInt8) : Option UInt8 :=
  if c = 34 then some 34 else if c = 92 then some 92 else if c = 47 then some 47
  else if c = 98 then some 8 else if c = 102 then some 12 else if c = 110 then some 10
  else if c = 114 then some 13 else if c = 116 then some 9 else none

/-- The content of a string: a byte (as it stands or by a one-character escape), or `\\uXXXX`. -/
inductive StrUnit where
  | byte (b : UInt8)
  | code (n : Nat)

/-- The bytes meant by the units: two escapes may make a surrogate pair, a lone surrogate is an error. -/
def strContent : List StrUnit → Option Bytes
  | [] => some []
  | .byte b :: t => (strContent t).map (b :: ·)
  | .code n :: t =>
    if 0xD800 ≤ n ∧ n < 0xDC00 then
      match t with
      | .code n' :: t' =>
        if 0xDC00 ≤ n' ∧ n' < 0xE000 then
          (strContent t').map (utf8Of (0x10000 + (n - 0xD800) * 1024 + (n' - 0xDC00)) ++ ·)
        else none
      | _ => none
    else if 0xDC00 ≤ n ∧ n < 0xE000 then none
    else (strContent t).map (utf8Of n ++ ·)

/-- The units of a string after its opening quote, and what follows the closing quote. -/
def pUnits : Bytes → Option (List StrUnit × Bytes)
  | [] => none
  | b :: t =>
    if b = 34 then some ([], t)
    else if b = 92 then
      match t with
      | [] => none
      | e :: t1 =>
        if e = 117 then
          match t1 with
          | a :: b :: c :: d :: t2 =>
            match hex4 a b c d with
            | none => none
            | some n => (pUnits t2).map fun x => (.code n :: x.1, x.2)
          | _ => none
        else match simpleEscape e with
          | some c => (pUnits t1).map fun x => (.byte c :: x.1, x.2)
          | none => none
    else if b < 32 then none
    else (pUnits t).map fun x => (.byte b :: x.1, x.2)

/-- `parse_str` / `ignore_str`, after the opening quote: the content and what follows the closing quote. Where the content
is used, a lone surrogate is an error; where it is ignored, it is not. -/
def pStr (s : Bytes) : Option (Option Bytes × Bytes) := (pUnits s).map fun x => (strContent x.1, x.2)

/-- One or more digits, and what follows. -/
def pDigits (s : Bytes) : Option (Bytes × Bytes) :=
  if s.takeWhile isDigit = [] then none else some (s.takeWhile isDigit, s.dropWhile isDigit)

/-- The fraction of a number, if any: was there one, and what follows. -/
def pFrac (s : Bytes) : Option (Bool × Bytes) :=
  match readChar 46 s with
  | none => some (false, s)
  | some r => (pDigits r).map fun x => (true, x.2)

/-- The exponent of a number, if any. -/
def pExp (s : Bytes) : Option (Bool × Bytes) :=
  match (readChar 101 s).or (readChar 69 s) with
  | none => some (false, s)
  | some r => (pDigits (((readChar 43 r).or (readChar 45 r)).getD r)).map fun x => (true, x.2)

/-- A number from its first digit on: is it an integer, its value if so. A leading zero must stand alone. -/
def pUnsigned (s : Bytes) : Option (Option Nat × Bytes) := do
  let (ds, r) ← pDigits s
  if ds.head? = some 48 ∧ 1 < ds.length then none
  else do
    let (frac, r) ← pFrac r
    let (exp, r) ← pExp r
    let n := ds.foldl (fun acc b => acc * 10 + (b.toNat - 48)) 0
    some (if frac || exp || decide (2 ^ 64 ≤ n) then none else some n, r)

/-- A number. -/
def pNum (s : Bytes) : Option (Json × Bytes) :=
  match readChar 45 s with
  | some r => (pUnsigned r).map fun x => (.num none, x.2)
  | none => (pUnsigned s).map fun x => (.num x.1, x.2)

/-- The rest of a literal name. -/
def pLit (lit : Bytes) (v : Json) (s : Bytes) : Option (Json × Bytes) :=
  if lit.isPrefixOf s then some (v, s.drop lit.length) else none

mutual
/-- A value, white space before it having been skipped; fuel bounds the nesting. -/
def pVal : Nat → Bytes → Option (Json × Bytes)
  | 0, _ => none
  | _ + 1, [] => none
  | f + 1, b :: t =>
    if b = 34 then (pStr t).map fun x => (.str x.1, x.2)
    else if b = 91 then
      match readChar 93 (skipWs t) with
      | some r => some (.arr [], r)
      | none => (pElems f (skipWs t)).map fun x => (.arr x.1, x.2)
    else if b = 123 then
      match readChar 125 (skipWs t) with
      | some r => some (.obj [], r)
      | none => (pMembers f (skipWs t)).map fun x => (.obj x.1, x.2)
    else if b = 110 then pLit b!"ull" .null t
    else if b = 116 then pLit b!"rue" (.bool true) t
    else if b = 102 then pLit b!"alse" (.bool false) t
    else pNum (b :: t)
/-- One or more elements of an array and the closing bracket. -/
def pElems : Nat → Bytes → Option (List Json × Bytes)
  | 0, _ => none
  | f + 1, s =>
    match pVal f s with
    | none => none
    | some (v, r) =>
      match readChar 93 (skipWs r) with
      | some r => some ([v], r)
      | none =>
        match readChar 44 (skipWs r) with
        | some r => (pElems f (skipWs r)).map fun x => (v :: x.1, x.2)
        | none => none
/-- One or more members of an object and the closing brace. -/
def pMembers : Nat → Bytes → Option (List (Option Bytes × Json) × Bytes)
  | 0, _ => none
  | f + 1, s =>
    match (readChar 34 s).bind pStr with
    | none => none
    | some (k, r) =>
      match readChar 58 (skipWs r) with
      | none => none
      | some r =>
        match pVal f (skipWs r) with
        | none => none
        | some (v, r) =>
          match readChar 125 (skipWs r) with
          | some r => some ([(k, v)], r)
          | none =>
            match readChar 44 (skipWs r) with
            | some r => (pMembers f (skipWs r)).map fun x => ((k, v) :: x.1, x.2)
            | none => none
end

/-- `serde_json::from_str` up to the types: one value, nothing but white space around it. The fuel decides every
document (`pVal_fuel`). -/
def parse (s : Bytes) : Option Json :=
  match pVal (2 * s.length + 2) (skipWs s) with
  | some (v, r) => if skipWs r = [] then some v else none
  | none => none

end Json

/-! ### The types -/

open Json

/-- All elements, or nothing. -/
def allSome {α : Type} : List (Option α) → Option (List α)
  | [] => some []
  | none :: _ => none
  | some a :: t => (allSome t).map (a :: ·)

/-- `usize`. -/
def natOf : Json → Option Nat
  | .num n => n
  | _ => none

/-- `String`. -/
def strOf : Json → Option Bytes
  | .str s => s
  | _ => none

/-- `Vec<T>`. -/
def vecOf {α : Type} (f : Json → Option α) : Json → Option (List α)
  | .arr l => allSome (l.map f)
  | _ => none

/-- `Option<T>`. -/
def optOf {α : Type} (f : Json → Option α) : Json → Option (Option α)
  | .null => some none
  | j => (f j).map some

/-- `Option<T>`, written. -/
def optTo {α : Type} (f : α → Json) : Option α → Json
  | none => .null
  | some a => f a

/-- `u8`. -/
def byteOf (j : Json) : Option UInt8 := (natOf j).bind fun n => if n < 256 then some (UInt8.ofNat n) else none

/-- The value of a field of an object: `some none` if it is missing, `none` if it is given twice. -/
def field (m : List (Option Bytes × Json)) (k : Bytes) : Option (Option Json) :=
  match m.filter (fun e => e.1 == some k) with
  | [] => some none
  | [e] => some (some e.2)
  | _ => none

/-- Every key can be read (keys are compared with the field names, so they are not merely skipped). -/
def keysReadable (m : List (Option Bytes × Json)) : Bool := m.all (fun e => e.1.isSome)

/-- A field that must be present. -/
def required {α : Type} (f : Json → Option α) (m : List (Option Bytes × Json)) (k : Bytes) : Option α :=
  match field m k with
  | some (some j) => f j
  | _ => none

/-- A field of type `Option<T>`: `None` if missing. -/
def optional {α : Type} (f : Json → Option α) (m : List (Option Bytes × Json)) (k : Bytes) : Option (Option α) :=
  match field m k with
  | some (some j) => optOf f j
  | some none => some none
  | none => none

/-- src/torrent/file.rs:6-10, derived `Deserialize`: an object (unknown fields are ignored) or an array of the fields in order. -/
def File.ofJson : Json → Option File
  | .obj m =>
    if keysReadable m then do
      let path ← required (vecOf strOf) m b!"path"
      let length ← required natOf m b!"length"
      some ⟨path, length⟩
    else none
  | .arr [p, l] => do
    let path ← vecOf strOf p
    let length ← natOf l
    some ⟨path, length⟩
  | _ => none

/-- src/torrent/file.rs:6-10, derived `Serialize`. -/
def File.toJson (f : File) : Json :=
  .obj [(some b!"path", .arr (f.path.map fun s => .str (some s))), (some b!"length", .num (some f.length))]

/-- src/torrent/info.rs:13-20, derived `Deserialize`. -/
def Info.ofJson : Json → Option Info
  | .obj m =>
    if keysReadable m then do
      let files ← optional (vecOf File.ofJson) m b!"files"
      let length ← optional natOf m b!"length"
      let name ← required strOf m b!"name"
      let pieceLength ← required natOf m b!"piece_length"
      let pieces ← required (vecOf byteOf) m b!"pieces"
      some { files, length, name, pieceLength, pieces }
    else none
  | .arr [f, l, n, pl, p] => do
    let files ← optOf (vecOf File.ofJson) f
    let length ← optOf natOf l
    let name ← strOf n
    let pieceLength ← natOf pl
    let pieces ← vecOf byteOf p
    some { files, length, name, pieceLength, pieces }
  | _ => none

/-- src/torrent/info.rs:13-20, derived `Serialize`. -/
def Info.toJson (i : Info) : Json :=
  .obj [(some b!"files", optTo (fun fs => .arr (fs.map File.toJson)) i.files),
    (some b!"length", optTo (fun n => .num (some n)) i.length),
    (some b!"name", .str (some i.name)),
    (some b!"piece_length", .num (some i.pieceLength)),
    (some b!"pieces", .arr (i.pieces.map fun b => .num (some b.toNat)))]

/-- `serde_json::from_str::<Info>`. -/
def Info.fromJson (s : Bytes) : Option Info := (Json.parse s).bind Info.ofJson

/-- `serde_json::to_writer(.., info)`: the bytes written. -/
def Info.json (i : Info) : Bytes := i.toJson.print

end RustBit
