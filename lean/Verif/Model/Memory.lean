/-
How much the decoder of src/bencode/decode.rs holds in memory.
-/
import Verif.Model.Bencode

namespace RustBit

mutual
/-- src/bencode/metainfo.rs:5-12: the memory a value takes, in units: one for every value and every key, and one for every byte of a string or key.
(A unit is a constant number of bytes: a `Vec` or `HashMap` may reserve twice what it holds, and a key is held twice for a moment, on lines
112-113 of src/bencode/decode.rs.) -/
def Metainfo.units : Metainfo → Nat
  | .integer _ => 1
  | .list l => unitsElems l + 1
  | .string s => s.length + 1
  | .dictionary d => unitsEntries d + 1
  | .nothing => 1
def unitsElems : List Metainfo → Nat
  | [] => 0
  | v :: t => v.units + unitsElems t
def unitsEntries : List (Bytes × Metainfo) → Nat
  | [] => 0
  | (k, v) :: t => (k.length + 1) + v.units + unitsEntries t
end

namespace Decoder

mutual
/-- src/bencode/decode.rs:125-136: the most units in use at a time while `decode` runs, as far as the fuel goes. -/
def heldF : Nat → Bytes → Nat → Nat
  | 0, _, _ => 0
  | f + 1, c, p =>
    match c[p]? with
    | none => 1
    | some b =>
      if b = c!"i" then 1
      else if b = c!"l" then listHeld f c (p + 1) []
      else if b = c!"d" then dictHeld f c (p + 1) []
      else if 49 ≤ b && b ≤ 57 then
        match parseString c p with
        | .ok (s, _) => s.length + 1
        | _ => 0
      else 1

/-- src/bencode/decode.rs:97-102: the same for the loop of `parse_list`, the list so far being `acc`. -/
def listHeld : Nat → Bytes → Nat → List Metainfo → Nat
  | 0, _, _, _ => 0
  | f + 1, c, p, acc =>
    match c[p]? with
    | none => unitsElems acc + 1
    | some b =>
      if b = c!"e" then unitsElems acc + 1
      else max (unitsElems acc + 1 + heldF f c p) (match decodeF f c p with
        | .ok (v, p1) => listHeld f c p1 (acc ++ [v])
        | _ => 0)

/-- src/bencode/decode.rs:109-122: the same for the loop of `parse_dictionary`. -/
def dictHeld : Nat → Bytes → Nat → List (Bytes × Metainfo) → Nat
  | 0, _, _, _ => 0
  | f + 1, c, p, acc =>
    match c[p]? with
    | none => unitsEntries acc + 1
    | some b =>
      if b = c!"e" then unitsEntries acc + 1
      else match parseString c p with
        | .ok (k, p1) =>
          if validUtf8 k then
            max (unitsEntries acc + 1 + (k.length + 1) + heldF f c p1) (match decodeF f c p1 with
              | .ok (v, p2) => dictHeld f c p2 (mapInsert acc k v)
              | _ => 0)
          else unitsEntries acc + 1 + (k.length + 1)
        | _ => unitsEntries acc + 1
end

/-- `Decoder::init(c).decode()` comes to hold at least `n` units at a time. -/
def Holds (n : Nat) (c : Bytes) : Prop := ∃ f, n ≤ heldF f c 0

end Decoder
end RustBit
