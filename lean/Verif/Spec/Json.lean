/-
JSON as RFC 8259 defines it, and which documents stand for a value of the Rust type `Info`, independent of the parser.
-/
import Verif.Model.Json
import Verif.Spec.Bencode
import Verif.Spec.Text

namespace Spec
open RustBit

/-- RFC 8259, section 2: white space. -/
def IsSpace (bs : List UInt8) : Prop := ∀ b ∈ bs, b = 0x20 ∨ b = 0x09 ∨ b = 0x0A ∨ b = 0x0D

/-- The value of a hexadecimal digit of either case. -/
def IsHex (n : Nat) (c : UInt8) : Prop :=
  (c.toNat = 48 + n ∧ n < 10) ∨ (c.toNat = 65 + (n - 10) ∧ 10 ≤ n ∧ n < 16) ∨ (c.toNat = 97 + (n - 10) ∧ 10 ≤ n ∧ n < 16)

/-- RFC 8259, section 7: the escapes of one character, as the character and what it stands for: quote, backslash, slash, backspace, form feed,
line feed, carriage return, tab. -/
def shortEscapes : List (UInt8 × UInt8) :=
  [(0x22, 0x22), (0x5C, 0x5C), (0x2F, 0x2F), (0x62, 0x08), (0x66, 0x0C), (0x6E, 0x0A), (0x72, 0x0D), (0x74, 0x09)]

/-- RFC 8259, section 7: the characters between the quotes of a string. -/
inductive IsChars : List Json.StrUnit → List UInt8 → Prop
  | nil : IsChars [] []
  | raw {b us bs} : 0x20 ≤ b.toNat → b ≠ 0x22 → b ≠ 0x5C → IsChars us bs → IsChars (.byte b :: us) (b :: bs)
  | short {e c us bs} : (e, c) ∈ shortEscapes → IsChars us bs → IsChars (.byte c :: us) (0x5C :: e :: bs)
  | hex {k l m n a b c d us bs} : IsHex k a → IsHex l b → IsHex m c → IsHex n d → IsChars us bs →
      IsChars (.code (4096 * k + 256 * l + 16 * m + n) :: us) (0x5C :: 0x75 :: a :: b :: c :: d :: bs)

/-- The text that the characters of a string stand for: an escape gives a scalar value, or two of them do as a surrogate pair. -/
inductive Means : List Json.StrUnit → List UInt8 → Prop
  | nil : Means [] []
  | byte {b us s} : Means us s → Means (.byte b :: us) (b :: s)
  | scalar {n us s} : Scalar n → Means us s → Means (.code n :: us) (utf8 n ++ s)
  | pair {h l us s} : h < 0x400 → l < 0x400 → Means us s →
      Means (.code (0xD800 + h) :: .code (0xDC00 + l) :: us) (utf8 (0x10000 + 0x400 * h + l) ++ s)

/-- A string with its quotes; no text if there is a lone surrogate. -/
inductive IsString : Option (List UInt8) → List UInt8 → Prop
  | text {us s bs} : IsChars us bs → Means us s → IsString (some s) (0x22 :: bs ++ [0x22])
  | lone {us bs} : IsChars us bs → (∀ s, ¬ Means us s) → IsString none (0x22 :: bs ++ [0x22])

/-- One or more decimal digits. -/
def IsDigits (ds : List UInt8) : Prop := ds ≠ [] ∧ ∀ d ∈ ds, 48 ≤ d.toNat ∧ d.toNat ≤ 57

/-- RFC 8259, section 6: the fraction, or nothing. -/
def IsFraction (bs : List UInt8) : Prop := bs = [] ∨ ∃ ds, IsDigits ds ∧ bs = 0x2E :: ds

/-- RFC 8259, section 6: the exponent, or nothing. -/
def IsExponent (bs : List UInt8) : Prop :=
  bs = [] ∨ ∃ e sign ds, (e = 0x65 ∨ e = 0x45) ∧ (sign = [] ∨ sign = [0x2B] ∨ sign = [0x2D]) ∧ IsDigits ds ∧ bs = e :: (sign ++ ds)

/-- RFC 8259, section 6: a number. It is `some n` if it is written as an integer from 0 to 2^64 - 1 without minus, fraction and exponent. -/
inductive IsNumber : Option Nat → List UInt8 → Prop
  | int {n ds} : IsDecimal n ds → n < 2 ^ 64 → IsNumber (some n) ds
  | other {minus n ds frac exp} : (minus = [] ∨ minus = [0x2D]) → IsDecimal n ds → IsFraction frac → IsExponent exp →
      (minus ≠ [] ∨ frac ≠ [] ∨ exp ≠ [] ∨ 2 ^ 64 ≤ n) → IsNumber none (minus ++ ds ++ frac ++ exp)

mutual
/-- RFC 8259, section 3: a value. -/
inductive IsJson : Json → List UInt8 → Prop
  | null : IsJson .null [0x6E, 0x75, 0x6C, 0x6C]
  | true : IsJson (.bool true) [0x74, 0x72, 0x75, 0x65]
  | false : IsJson (.bool false) [0x66, 0x61, 0x6C, 0x73, 0x65]
  | num {n bs} : IsNumber n bs → IsJson (.num n) bs
  | str {s bs} : IsString s bs → IsJson (.str s) bs
  | empty {w} : IsSpace w → IsJson (.arr []) (0x5B :: w ++ [0x5D])
  | arr {l bs} : JElems l bs → IsJson (.arr l) (0x5B :: bs ++ [0x5D])
  | none {w} : IsSpace w → IsJson (.obj []) (0x7B :: w ++ [0x7D])
  | obj {m bs} : JMembers m bs → IsJson (.obj m) (0x7B :: bs ++ [0x7D])
/-- One or more elements, separated by commas. -/
inductive JElems : List Json → List UInt8 → Prop
  | one {v w bs w'} : IsSpace w → IsJson v bs → IsSpace w' → JElems [v] (w ++ bs ++ w')
  | cons {v w bs w' l bs'} : IsSpace w → IsJson v bs → IsSpace w' → JElems l bs' → JElems (v :: l) (w ++ bs ++ w' ++ 0x2C :: bs')
/-- One or more members, separated by commas. -/
inductive JMembers : List (Option (List UInt8) × Json) → List UInt8 → Prop
  | one {k v w ks w1 w2 bs w'} : IsSpace w → IsString k ks → IsSpace w1 → IsSpace w2 → IsJson v bs → IsSpace w' →
      JMembers [(k, v)] (w ++ ks ++ w1 ++ 0x3A :: (w2 ++ bs ++ w'))
  | cons {k v w ks w1 w2 bs w' m bs'} : IsSpace w → IsString k ks → IsSpace w1 → IsSpace w2 → IsJson v bs → IsSpace w' → JMembers m bs' →
      JMembers ((k, v) :: m) (w ++ ks ++ w1 ++ 0x3A :: (w2 ++ bs ++ w' ++ 0x2C :: bs'))
end

/-- RFC 8259, section 2: a document. -/
def IsDocument (v : Json) (s : List UInt8) : Prop := ∃ w bs w', IsSpace w ∧ IsJson v bs ∧ IsSpace w' ∧ s = w ++ bs ++ w'

/-! ### Values of Rust types -/

/-- The elements correspond, one by one. -/
inductive Each {α : Type} (R : Json → α → Prop) : List Json → List α → Prop
  | nil : Each R [] []
  | cons {j a js as} : R j a → Each R js as → Each R (j :: js) (a :: as)

/-- `Vec<T>`. -/
def IsVec {α : Type} (R : Json → α → Prop) (j : Json) (l : List α) : Prop := ∃ js, j = .arr js ∧ Each R js l

/-- `usize`. -/
def IsUsize (j : Json) (n : Nat) : Prop := j = .num (some n)

/-- `u8`. -/
def IsU8 (j : Json) (b : UInt8) : Prop := j = .num (some b.toNat)

/-- `String`. -/
def IsRustString (j : Json) (s : List UInt8) : Prop := j = .str (some s)

/-- `Option<T>`: `null` for `None`. -/
def IsOption {α : Type} (R : Json → α → Prop) (j : Json) : Option α → Prop
  | none => j = .null
  | some a => R j a

/-- No member has this name. -/
def Lacks (m : List (Option (List UInt8) × Json)) (k : List UInt8) : Prop := ∀ e ∈ m, e.1 ≠ some k

/-- Just one member has this name, with this value. -/
def Has (m : List (Option (List UInt8) × Json)) (k : List UInt8) (j : Json) : Prop :=
  ∃ pre post, m = pre ++ (some k, j) :: post ∧ Lacks pre k ∧ Lacks post k

/-- All names are text. -/
def Named (m : List (Option (List UInt8) × Json)) : Prop := ∀ e ∈ m, ∃ k, e.1 = some k

/-- src/torrent/file.rs: a file, as an object (other members are ignored) or as an array. -/
def IsFile (j : Json) (f : RustBit.File) : Prop :=
  ∃ p l, IsVec IsRustString p f.path ∧ IsUsize l f.length ∧
    ((∃ m, j = .obj m ∧ Named m ∧ Has m b!"path" p ∧ Has m b!"length" l) ∨ j = .arr [p, l])

/-- A field of type `Option<T>` may be missing. -/
def OptionField {α : Type} (R : Json → α → Prop) (m : List (Option (List UInt8) × Json)) (k : List UInt8) (o : Option α) : Prop :=
  (Lacks m k ∧ o = none) ∨ ∃ j, Has m k j ∧ IsOption R j o

/-- src/torrent/info.rs: metadata, as an object (other members are ignored) or as an array. -/
def IsInfo (j : Json) (i : Info) : Prop :=
  (∃ m, j = .obj m ∧ Named m ∧ OptionField (IsVec IsFile) m b!"files" i.files ∧ OptionField IsUsize m b!"length" i.length ∧
    (∃ n, Has m b!"name" n ∧ IsRustString n i.name) ∧ (∃ p, Has m b!"piece_length" p ∧ IsUsize p i.pieceLength) ∧
    (∃ p, Has m b!"pieces" p ∧ IsVec IsU8 p i.pieces)) ∨
  (∃ f l n pl p, j = .arr [f, l, n, pl, p] ∧ IsOption (IsVec IsFile) f i.files ∧ IsOption IsUsize l i.length ∧ IsRustString n i.name ∧
    IsUsize pl i.pieceLength ∧ IsVec IsU8 p i.pieces)

/-- The bytes are a JSON document for this metadata. -/
def Stored (i : Info) (s : List UInt8) : Prop := ∃ v, IsDocument v s ∧ IsInfo v i

end Spec
