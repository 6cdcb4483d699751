/-
Model of src/bencode/{decode,encode,metainfo}.rs.
-/
import Verif.Model.Prelude

namespace RustBit

/-- src/bencode/metainfo.rs:5-12 `enum Metainfo`. The `HashMap` is an association list. -/
inductive Metainfo where
  | integer (n : Nat)
  | list (l : List Metainfo)
  | string (b : Bytes)
  | dictionary (d : List (Bytes × Metainfo))
  | nothing
  deriving Repr

/-- src/bencode/decode.rs:13-23 `enum DecoderError`. -/
inductive DecoderError where
  | badNumberFromString (pos : Nat)
  | badNumberDecode (s : Bytes)
  | noStringFound (pos : Nat)
  | badStringFromBytes (pos : Nat)
  deriving Repr, DecidableEq

namespace Decoder

/-- src/bencode/decode.rs:44-46, the `while self.get_current_byte().is_ascii_digit()` loop run on the
bytes from the current position on: number of digits skipped, or `none` when it runs off the end
(`self.contents[self.current]` panics, line 39). -/
def countDigits : Bytes → Option Nat
  | [] => none
  | b :: t => if isDigit b then (countDigits t).map (· + 1) else some 0

/-- `str::parse::<usize>()` on a string of ASCII digits (the only strings that reach it,
src/bencode/decode.rs:60): empty and ≥ 2^64 are errors. -/
def parseUsize (s : Bytes) : Option Nat :=
  if s = [] then none
  else
    let n := s.foldl (fun acc b => acc * 10 + (b.toNat - 48)) 0
    if n < 2 ^ 64 then some n else none

/-- src/bencode/decode.rs:42-70 `get_consecutive_digits`: the number and the new position. -/
def getConsecutiveDigits (c : Bytes) (p : Nat) : Res DecoderError (Nat × Nat) :=
  match countDigits (c.drop p) with
  | none => .panic
  | some k => do
    let s ← slice c p (p + k)
    if validUtf8 s then
      match parseUsize s with
      | some n => .ok (n, p + k)
      | none => .err (.badNumberDecode s)
    else .err (.badNumberFromString (p + k))

/-- src/bencode/decode.rs:72-81 `parse_integer`. Both arms of the `match` (lines 76-79) advance. -/
def parseInteger (c : Bytes) (p : Nat) : Res DecoderError (Metainfo × Nat) := do
  let (n, p1) ← getConsecutiveDigits c (p + 1)
  .ok (.integer n, p1 + 1)

/-- src/bencode/decode.rs:83-91 `parse_string`, returning the raw bytes. The addition on line 88 may
overflow; then debug panics on the addition and release panics on the inverted slice, so
in both builds the result is a panic, as `slice` gives for the unbounded sum. -/
def parseString (c : Bytes) (p : Nat) : Res DecoderError (Bytes × Nat) := do
  let (n, p1) ← getConsecutiveDigits c p
  let b ← slice c (p1 + 1) (p1 + 1 + n)
  .ok (b, p1 + 1 + n)

mutual
/-- src/bencode/decode.rs:125-136 `decode`, with recursion fuel. -/
def decodeF : Nat → Bytes → Nat → Res DecoderError (Metainfo × Nat)
  | 0, _, _ => .hang
  | f + 1, c, p =>
    match c[p]? with
    | none => .ok (.nothing, p)
    | some b =>
      if b = c!"i" then parseInteger c p
      else if b = c!"l" then listLoop f c (p + 1) []
      else if b = c!"d" then dictLoop f c (p + 1) []
      else if 49 ≤ b && b ≤ 57 then do
        let (s, p1) ← parseString c p
        .ok (.string s, p1)
      else .ok (.nothing, p)

/-- src/bencode/decode.rs:97-102, the loop of `parse_list` (entered after the `advance` on line 94). -/
def listLoop : Nat → Bytes → Nat → List Metainfo → Res DecoderError (Metainfo × Nat)
  | 0, _, _, _ => .hang
  | f + 1, c, p, acc =>
    match c[p]? with
    | none => .panic
    | some b =>
      if b = c!"e" then .ok (.list acc, p + 1)
      else do
        let (v, p1) ← decodeF f c p
        listLoop f c p1 (acc ++ [v])

/-- src/bencode/decode.rs:109-122, the loop of `parse_dictionary`. The `else` on line 114 is
unreachable since `parse_string` only builds `Metainfo::String`. -/
def dictLoop : Nat → Bytes → Nat → List (Bytes × Metainfo) → Res DecoderError (Metainfo × Nat)
  | 0, _, _, _ => .hang
  | f + 1, c, p, acc =>
    match c[p]? with
    | none => .panic
    | some b =>
      if b = c!"e" then .ok (.dictionary acc, p + 1)
      else do
        let (k, p1) ← parseString c p
        if validUtf8 k then do
          let (v, p2) ← decodeF f c p1
          dictLoop f c p2 (mapInsert acc k v)
        else .err (.badStringFromBytes p1)
end

/-- A `Decoder` is its position and contents (src/bencode/decode.rs:8-11); `decode()` at position
`p`. `2 * len + 2` units of fuel decide every input: see `Proofs.Bencode`, where it is shown that
`hang` here means that no amount of fuel gives a result. -/
def decodeAt (c : Bytes) (p : Nat) : Res DecoderError (Metainfo × Nat) :=
  decodeF (2 * c.length + 2) c p

/-- `Decoder::init(c).decode()` with `get_total_parsed_bytes()` (src/bencode/decode.rs:26-31,
125-140). -/
def decode (c : Bytes) : Res DecoderError (Metainfo × Nat) := decodeAt c 0

end Decoder

/-! ### metainfo.rs accessors -/

/-- src/bencode/metainfo.rs:31-39 `enum MetainfoError` (display strings reduced to their source). -/
inductive MetainfoError where
  | badMetainfoMatch (expected found : Bytes)
  | utf8ConversionError
  | noKeyInDictionary (key : Bytes)
  deriving Repr, DecidableEq

namespace Metainfo

/-- src/bencode/metainfo.rs:19-29 `Display`. -/
def typeName : Metainfo → Bytes
  | integer _ => b!"Integer"
  | list _ => b!"List"
  | string _ => b!"String"
  | dictionary _ => b!"Dictionary"
  | nothing => b!"Nothing"

/-- src/bencode/metainfo.rs:42-50. -/
def getBytesContent : Metainfo → Res MetainfoError Bytes
  | string v => .ok v
  | m => .err (.badMetainfoMatch b!"String" m.typeName)

/-- src/bencode/metainfo.rs:52-60. -/
def getStringContent : Metainfo → Res MetainfoError Bytes
  | string v => if validUtf8 v then .ok v else .err .utf8ConversionError
  | m => .err (.badMetainfoMatch b!"String" m.typeName)

/-- src/bencode/metainfo.rs:62-70. -/
def getIntegerContent : Metainfo → Res MetainfoError Nat
  | integer v => .ok v
  | m => .err (.badMetainfoMatch b!"Integer" m.typeName)

/-- src/bencode/metainfo.rs:72-80. -/
def getListContent : Metainfo → Res MetainfoError (List Metainfo)
  | list v => .ok v
  | m => .err (.badMetainfoMatch b!"List" m.typeName)

/-- src/bencode/metainfo.rs:82-90. -/
def getDictContent : Metainfo → Res MetainfoError (List (Bytes × Metainfo))
  | dictionary v => .ok v
  | m => .err (.badMetainfoMatch b!"Dictionary" m.typeName)

/-- src/bencode/metainfo.rs:92-97. -/
def getValueFromDict (m : Metainfo) (key : Bytes) : Res MetainfoError Metainfo := do
  let d ← m.getDictContent
  match mapGet d key with
  | some v => .ok v
  | none => .err (.noKeyInDictionary key)

/-- src/bencode/metainfo.rs:99-104. -/
def getBytesFromDict (m : Metainfo) (key : Bytes) : Res MetainfoError Bytes := do
  let d ← m.getDictContent
  match mapGet d key with
  | some v => v.getBytesContent
  | none => .err (.noKeyInDictionary key)

/-- src/bencode/metainfo.rs:106-111. -/
def getStringFromDict (m : Metainfo) (key : Bytes) : Res MetainfoError Bytes := do
  let d ← m.getDictContent
  match mapGet d key with
  | some v => v.getStringContent
  | none => .err (.noKeyInDictionary key)

/-- src/bencode/metainfo.rs:113-118. -/
def getIntegerFromDict (m : Metainfo) (key : Bytes) : Res MetainfoError Nat := do
  let d ← m.getDictContent
  match mapGet d key with
  | some v => v.getIntegerContent
  | none => .err (.noKeyInDictionary key)

/-- src/bencode/metainfo.rs:120-125. -/
def getListFromDict (m : Metainfo) (key : Bytes) : Res MetainfoError (List Metainfo) := do
  let d ← m.getDictContent
  match mapGet d key with
  | some v => v.getListContent
  | none => .err (.noKeyInDictionary key)

end Metainfo

/-! ### encode.rs -/

/-- src/bencode/encode.rs:7-21 `Encode for String` and `Encode for &str`: the length written is the
number of *characters*. -/
def encStr (s : Bytes) : Bytes := decimal (charCount s) ++ c!":" :: s

/-- src/bencode/encode.rs:23-27 `Encode for usize`. -/
def encUsize (n : Nat) : Bytes := c!"i" :: decimal n ++ [c!"e"]

/-- src/bencode/encode.rs:29-34 `Encode for Vec<u8>`. -/
def encBytes (b : Bytes) : Bytes := decimal b.length ++ c!":" :: b

/-- src/bencode/encode.rs:36-45 `Encode for Vec<T>`, from the encodings of the elements. -/
def encVec (l : List Bytes) : Bytes := c!"l" :: l.flatten ++ [c!"e"]

/-- Key comparison of src/bencode/encode.rs:50: `str` order is lexicographic on bytes. -/
def keyLe (a b : Bytes × Bytes) : Bool := decide (a.1 ≤ b.1)

/-- Insertion of one entry into a sorted list, before the first entry that is not smaller. -/
def insertKey (e : Bytes × Bytes) : List (Bytes × Bytes) → List (Bytes × Bytes)
  | [] => [e]
  | x :: t => if keyLe e x then e :: x :: t else x :: insertKey e t

/-- `items.sort_by(|a, b| a.0.cmp(b.0))`, src/bencode/encode.rs:50: a stable sort by key (written as
insertion sort; the keys of a map are distinct, so every sorting algorithm gives this list). -/
def sortKeys : List (Bytes × Bytes) → List (Bytes × Bytes)
  | [] => []
  | e :: t => insertKey e (sortKeys t)

/-- src/bencode/encode.rs:47-60 `Encode for HashMap<String, T>`, from the entries in the map's
iteration order with the values already encoded. -/
def encMap (m : List (Bytes × Bytes)) : Bytes :=
  c!"d" :: ((sortKeys m).map (fun kv => encStr kv.1 ++ kv.2)).flatten ++ [c!"e"]

/-- src/bencode/encode.rs:62-69 `Encode for Option<T>`, from the encoding of the content. -/
def encOpt (o : Option Bytes) : Bytes := o.getD []

/-- src/bencode/encode.rs:71-79 `encode_dict_entry`, from the encoded value. -/
def encodeDictEntry (key : Bytes) (encodedValue : Bytes) : Bytes :=
  if encodedValue = [] ∨ key = [] then [] else encStr key ++ encodedValue

/-- Values of the Rust types built from the `Encode` instances of encode.rs. -/
inductive EVal where
  | str (s : Bytes)
  | usize (n : Nat)
  | bytes (b : Bytes)
  | vec (l : List EVal)
  | map (m : List (Bytes × EVal))
  | opt (o : Option EVal)
  deriving Repr

mutual
/-- `Encode::encode` on all these types (src/bencode/encode.rs:7-69). -/
def EVal.encode : EVal → Bytes
  | .str s => encStr s
  | .usize n => encUsize n
  | .bytes b => encBytes b
  | .vec l => encVec (encodeElems l)
  | .map m => encMap (encodeEntries m)
  | .opt none => encOpt none
  | .opt (some v) => encOpt (some v.encode)

/-- The element encodings appended by src/bencode/encode.rs:39-41. -/
def encodeElems : List EVal → List Bytes
  | [] => []
  | v :: t => v.encode :: encodeElems t

/-- The entries with encoded values, in iteration order (src/bencode/encode.rs:49, 53-56). -/
def encodeEntries : List (Bytes × EVal) → List (Bytes × Bytes)
  | [] => []
  | (k, v) :: t => (k, v.encode) :: encodeEntries t
end

end RustBit
