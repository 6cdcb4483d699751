/-
How long the decoder of src/bencode/decode.rs takes.
-/
import Verif.Model.Bencode

namespace RustBit
namespace Decoder

/-- src/bencode/decode.rs:42-70 `get_consecutive_digits`: the bytes gone over by the loop (the one after the digits included), by `from_utf8`, by `parse`,
and by `to_owned` if the number is too large. (`parse` may stop earlier.) -/
def digitsTime (c : Bytes) (p : Nat) : Nat :=
  match countDigits (c.drop p) with
  | none => c.length - p
  | some k => match getConsecutiveDigits c p with
    | .ok _ => 3 * k + 1
    | _ => 4 * k + 1

/-- src/bencode/decode.rs:83-91 `parse_string`: the digits, and the bytes copied on line 90. -/
def stringTime (c : Bytes) (p : Nat) : Nat :=
  digitsTime c p + match parseString c p with
    | .ok (s, _) => s.length
    | _ => 0

mutual
/-- src/bencode/decode.rs:125-136: the steps `decode` takes, as far as the fuel goes: one for every call, one for every round of a loop, and one for every byte
gone over. -/
def timeF : Nat → Bytes → Nat → Nat
  | 0, _, _ => 0
  | f + 1, c, p =>
    match c[p]? with
    | none => 1
    | some b =>
      if b = c!"i" then 1 + digitsTime c (p + 1)
      else if b = c!"l" then 1 + listTime f c (p + 1)
      else if b = c!"d" then 1 + dictTime f c (p + 1)
      else if 49 ≤ b && b ≤ 57 then 1 + stringTime c p
      else 1

/-- src/bencode/decode.rs:97-102: the loop of `parse_list`. (What `push` takes is constant on average.) -/
def listTime : Nat → Bytes → Nat → Nat
  | 0, _, _ => 0
  | f + 1, c, p =>
    match c[p]? with
    | none => 1
    | some b =>
      if b = c!"e" then 1
      else 1 + timeF f c p + match decodeF f c p with
        | .ok (_, p1) => listTime f c p1
        | _ => 0

/-- src/bencode/decode.rs:109-122: the loop of `parse_dictionary`. A key is checked (line 111), copied (line 113) and hashed (line 118). (What `insert` takes
otherwise is constant on average: the hash is keyed at random.) -/
def dictTime : Nat → Bytes → Nat → Nat
  | 0, _, _ => 0
  | f + 1, c, p =>
    match c[p]? with
    | none => 1
    | some b =>
      if b = c!"e" then 1
      else 1 + stringTime c p + match parseString c p with
        | .ok (k, p1) =>
          if validUtf8 k then k.length + k.length + timeF f c p1 + match decodeF f c p1 with
            | .ok (_, p2) => k.length + dictTime f c p2
            | _ => 0
          else k.length
        | _ => 0
end

/-- `Decoder::init(c).decode()` takes at least `n` steps. -/
def Takes (n : Nat) (c : Bytes) : Prop := ∃ f, n ≤ timeF f c 0

end Decoder
end RustBit
