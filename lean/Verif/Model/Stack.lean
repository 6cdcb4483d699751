import Verif.Model.Bencode

/-!
How deep the calls of the decoder nest: src/bencode/decode.rs:125-136 `decode` calls itself through `parse_list` (line 98) and
`parse_dictionary` (line 117), each time on the call stack of the thread. The outcome of a call does not depend on how deep it is, so the positions
are those of `Model.Bencode`.
-/

namespace RustBit.Decoder

mutual
/-- src/bencode/decode.rs:125-136: how many calls of `decode`, this one included, are open at a time. -/
def depthF : Nat → Bytes → Nat → Nat
  | 0, _, _ => 1
  | f + 1, c, p =>
    match c[p]? with
    | none => 1
    | some b =>
      if b = c!"i" then 1
      else if b = c!"l" then listDepth f c (p + 1) + 1
      else if b = c!"d" then dictDepth f c (p + 1) + 1
      else 1

/-- src/bencode/decode.rs:97-99: the same for the calls made by the loop of `parse_list`. -/
def listDepth : Nat → Bytes → Nat → Nat
  | 0, _, _ => 0
  | f + 1, c, p =>
    match c[p]? with
    | none => 0
    | some b =>
      if b = c!"e" then 0
      else match decodeF f c p with
        | .ok (_, p1) => max (depthF f c p) (listDepth f c p1)
        | _ => depthF f c p

/-- src/bencode/decode.rs:109-119: the same for the calls made by the loop of `parse_dictionary`. -/
def dictDepth : Nat → Bytes → Nat → Nat
  | 0, _, _ => 0
  | f + 1, c, p =>
    match c[p]? with
    | none => 0
    | some b =>
      if b = c!"e" then 0
      else match parseString c p with
        | .ok (k, p1) =>
          if validUtf8 k then
            match decodeF f c p1 with
            | .ok (_, p2) => max (depthF f c p1) (dictDepth f c p2)
            | _ => depthF f c p1
          else 0
        | _ => 0
end

/-- `Decoder::init(c).decode()` comes to have at least `n` calls of `decode` open at a time. -/
def Reaches (n : Nat) (c : Bytes) : Prop := ∃ f, n ≤ depthF f c 0

end RustBit.Decoder
