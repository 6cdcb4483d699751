import Verif.Spec.Text

/-!
What a log is made of: lines.
-/

namespace Spec

/-- Neither a line feed nor a carriage return. -/
def OneLine (bs : List UInt8) : Prop := 10 ∉ bs ∧ 13 ∉ bs

/-- The file is these lines, each ended by a line feed, and then the beginning of another one. -/
def IsLines (file : List UInt8) (ls : List (List UInt8)) (rest : List UInt8) : Prop :=
  file = (ls.map (· ++ [10])).flatten ++ rest ∧ (∀ l ∈ ls, 10 ∉ l) ∧ 10 ∉ rest

/-- BEP 3, BEP 10: the names of the messages. -/
def bepName : Nat → Option String
  | 0 => some "choke"
  | 1 => some "unchoke"
  | 2 => some "interested"
  | 3 => some "not interested"
  | 4 => some "have"
  | 5 => some "bitfield"
  | 6 => some "request"
  | 7 => some "piece"
  | 8 => some "cancel"
  | 20 => some "extended"
  | _ => none

/-! ### String literals (The Rust Reference, section "Tokens") -/

/-- The value of a hexadecimal digit. -/
def hexDigit (b : UInt8) : Option Nat :=
  if 48 ≤ b ∧ b ≤ 57 then some (b.toNat - 48)
  else if 97 ≤ b ∧ b ≤ 102 then some (b.toNat - 87)
  else if 65 ≤ b ∧ b ≤ 70 then some (b.toNat - 55)
  else none

/-- Hexadecimal digits up to a closing brace, and what comes after it. -/
def readHex : List UInt8 → Nat → Option (Nat × List UInt8)
  | [], _ => none
  | b :: t, acc =>
    if b = 125 then some (acc, t)
    else match hexDigit b with
      | some d => readHex t (acc * 16 + d)
      | none => none

/-- What an escape stands for, from after the backslash on, and what comes after it. -/
def readEscape : List UInt8 → Option (List UInt8 × List UInt8)
  | [] => none
  | b :: t =>
    if b = 48 then some ([0], t)
    else if b = 116 then some ([9], t)
    else if b = 110 then some ([10], t)
    else if b = 114 then some ([13], t)
    else if b = 34 then some ([34], t)
    else if b = 92 then some ([92], t)
    else if b = 117 then match t with
      | 123 :: t => match readHex t 0 with
        | some (n, r) => some (utf8 n, r)
        | none => none
      | _ => none
    else none

/-- The text up to the closing quotation mark, and what comes after it. -/
def readText : Nat → List UInt8 → Option (List UInt8 × List UInt8)
  | 0, _ => none
  | _, [] => none
  | f + 1, b :: t =>
    if b = 34 then some ([], t)
    else if b = 92 then match readEscape t with
      | some (x, r) => match readText f r with
        | some (y, r) => some (x ++ y, r)
        | none => none
      | none => none
    else match readText f t with
      | some (y, r) => some (b :: y, r)
      | none => none

/-- The string literal at the beginning of a text: what it denotes, and what comes after it. -/
def unquote : List UInt8 → Option (List UInt8 × List UInt8)
  | 34 :: t => readText t.length t
  | _ => none

end Spec
