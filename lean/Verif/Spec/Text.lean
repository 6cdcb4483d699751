import Verif.Model.Info

/-!
UTF-8 as RFC 3629 defines it, independent of the validation automaton.
-/

namespace Spec
open RustBit

/-- Unicode scalar values: code points other than surrogates. -/
def Scalar (n : Nat) : Prop := n < 0xD800 ∨ (0xE000 ≤ n ∧ n < 0x110000)

/-- RFC 3629, section 3: the bytes of one scalar value. -/
def utf8 (n : Nat) : List UInt8 :=
  if n < 0x80 then [UInt8.ofNat n]
  else if n < 0x800 then [UInt8.ofNat (0xC0 + n / 64), UInt8.ofNat (0x80 + n % 64)]
  else if n < 0x10000 then
    [UInt8.ofNat (0xE0 + n / 4096), UInt8.ofNat (0x80 + n / 64 % 64), UInt8.ofNat (0x80 + n % 64)]
  else
    [UInt8.ofNat (0xF0 + n / 262144), UInt8.ofNat (0x80 + n / 4096 % 64), UInt8.ofNat (0x80 + n / 64 % 64),
     UInt8.ofNat (0x80 + n % 64)]

/-- The bytes are the UTF-8 form of these scalar values. -/
def IsText (cs : List Nat) (bs : List UInt8) : Prop := (∀ n ∈ cs, Scalar n) ∧ bs = cs.flatMap utf8

/-- Well-formed text. -/
def Text (bs : List UInt8) : Prop := ∃ cs, IsText cs bs

mutual
/-- Every dictionary key, at any depth, is text. -/
def KeysText : Metainfo → Prop
  | .integer _ => True
  | .list l => KeysTextElems l
  | .string _ => True
  | .dictionary d => KeysTextEntries d
  | .nothing => True
def KeysTextElems : List Metainfo → Prop
  | [] => True
  | v :: t => KeysText v ∧ KeysTextElems t
def KeysTextEntries : List (List UInt8 × Metainfo) → Prop
  | [] => True
  | (k, v) :: t => Text k ∧ KeysText v ∧ KeysTextEntries t
end

end Spec
