/-
Specification of compact peer lists (BEP 23), the UDP tracker protocol (BEP 15), percent-encoding (RFC 3986) and query strings.
-/
import Verif.Spec.Bencode

namespace Spec

/-- An IPv4 address and port. -/
structure Addr where
  a : UInt8
  b : UInt8
  c : UInt8
  d : UInt8
  port : Nat
  deriving Repr, DecidableEq

/-- Compact form: four address bytes, then the port, big-endian. -/
def Addr.compact (x : Addr) : List UInt8 :=
  [x.a, x.b, x.c, x.d, UInt8.ofNat (x.port / 256), UInt8.ofNat (x.port % 256)]

/-- The address in dotted-quad notation. -/
def Addr.IsDotted (x : Addr) (s : List UInt8) : Prop :=
  ∃ w1 w2 w3 w4, IsDecimal x.a.toNat w1 ∧ IsDecimal x.b.toNat w2 ∧ IsDecimal x.c.toNat w3 ∧ IsDecimal x.d.toNat w4 ∧
    s = w1 ++ [46] ++ w2 ++ [46] ++ w3 ++ [46] ++ w4

/-- The four numbers of the address and the port. -/
def Addr.numbers (x : Addr) : List Nat × Nat := ([x.a.toNat, x.b.toNat, x.c.toNat, x.d.toNat], x.port)

/-- Two lists of the same length whose corresponding elements are related. -/
inductive Forall2 {α β : Type} (R : α → β → Prop) : List α → List β → Prop
  | nil : Forall2 R [] []
  | cons {a b l m} : R a b → Forall2 R l m → Forall2 R (a :: l) (b :: m)

/-- The bytes `field` stand at offset `off` of `msg`. -/
def FieldAt (msg : List UInt8) (off : Nat) (field : List UInt8) : Prop := (msg.drop off).take field.length = field

/-- The number a big-endian field of `len` bytes at offset `off` denotes. -/
def fieldNat (msg : List UInt8) (off len : Nat) : Nat := ((msg.drop off).take len).foldl (fun a b => 256 * a + b.toNat) 0

/-- Value of a hexadecimal digit. -/
def hexValue (c : UInt8) : Option UInt8 :=
  if 48 ≤ c && c ≤ 57 then some (c - 48)
  else if 65 ≤ c && c ≤ 70 then some (c - 55)
  else if 97 ≤ c && c ≤ 102 then some (c - 87)
  else none

/-- Percent-decoding: `%` and two hexadecimal digits stand for a byte, any other byte for itself. -/
def percentDecode : List UInt8 → List UInt8
  | 37 :: x :: y :: t => match hexValue x, hexValue y with
    | some h, some l => (h * 16 + l) :: percentDecode t
    | _, _ => 37 :: percentDecode (x :: y :: t)
  | b :: t => b :: percentDecode t
  | [] => []
termination_by s => s.length

/-- Unreserved characters of a URL (RFC 3986, section 2.3): they never need escaping. -/
def IsUnreserved (b : UInt8) : Prop :=
  (48 ≤ b ∧ b ≤ 57) ∨ (65 ≤ b ∧ b ≤ 90) ∨ (97 ≤ b ∧ b ≤ 122) ∨ b = 45 ∨ b = 46 ∨ b = 95 ∨ b = 126

/-- A hexadecimal digit, with a capital letter. -/
def IsCapitalHex (c : UInt8) : Prop := (48 ≤ c ∧ c ≤ 57) ∨ (65 ≤ c ∧ c ≤ 70)

/-- Percent-encoded text in normal form (RFC 3986, section 6.2.2): unreserved characters stand for themselves, every other byte is escaped with capital
digits, and nothing else is. -/
inductive NormalEscapes : List UInt8 → Prop
  | nil : NormalEscapes []
  | plain {b s} : IsUnreserved b → NormalEscapes s → NormalEscapes (b :: s)
  | escaped {x y h l s} : IsCapitalHex x → IsCapitalHex y → hexValue x = some h → hexValue y = some l → ¬ IsUnreserved (h * 16 + l) →
      NormalEscapes s → NormalEscapes (37 :: x :: y :: s)

/-- Everything before the first `c`, and what follows it. -/
def cutAt (c : UInt8) : List UInt8 → List UInt8 × Option (List UInt8)
  | [] => ([], none)
  | b :: t => if b = c then ([], some t) else (b :: (cutAt c t).1, (cutAt c t).2)

/-- The parts between the occurrences of `c`. -/
def splitAll (c : UInt8) : List UInt8 → List (List UInt8)
  | [] => [[]]
  | b :: t => if b = c then [] :: splitAll c t
    else match splitAll c t with
      | [] => [[b]]
      | p :: ps => (b :: p) :: ps

/-- The parameters in the query of a URL: the part between the first `?` and `#`, split at `&` and `=`, decoded. -/
def queryParams (url : List UInt8) : List (List UInt8 × List UInt8) :=
  match (cutAt 63 (cutAt 35 url).1).2 with
  | none => []
  | some q => (splitAll 38 q).map fun kv => (percentDecode (cutAt 61 kv).1, percentDecode ((cutAt 61 kv).2.getD []))

/-- The codings listed in an `Accept-Encoding` field: separated by commas, with spaces around them. -/
def codingsOf (field : List UInt8) : List (List UInt8) := (splitAll 44 field).map fun x => x.filter (· ≠ 32)

/-- The authority of a URL: its host and, if one is given, the port. -/
def IsAuthority (host : List UInt8) (port : Option Nat) (s : List UInt8) : Prop :=
  match port with
  | none => s = host
  | some p => ∃ w, IsDecimal p w ∧ s = host ++ 58 :: w

/-- ASCII letter or digit. -/
def IsAlnum (b : UInt8) : Prop := (48 ≤ b ∧ b ≤ 57) ∨ (65 ≤ b ∧ b ≤ 90) ∨ (97 ≤ b ∧ b ≤ 122)

end Spec
