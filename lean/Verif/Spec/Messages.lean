/-
Specification of the peer wire format (BEP 3, BEP 9, BEP 10), independent of the model.
-/
import Verif.Spec.Bencode

namespace Spec

/-- The number denoted by a big-endian byte string. -/
def beValue : List UInt8 → Nat
  | [] => 0
  | b :: t => b.toNat * 256 ^ t.length + beValue t

/-- `bs` is the 32-bit big-endian notation of `n`. -/
def IsU32 (n : Nat) (bs : List UInt8) : Prop := bs.length = 4 ∧ beValue bs = n

/-- A framed message with the given id and body: a 32-bit length, which counts the id and the body,
the id, the body. -/
def IsFrame (id : UInt8) (body bs : List UInt8) : Prop :=
  ∃ len, IsU32 (body.length + 1) len ∧ bs = len ++ id :: body

/-- A block request (id 6): piece index, offset inside the piece, length. -/
def IsBlockRequest (piece offset length : Nat) (bs : List UInt8) : Prop :=
  ∃ p o l, IsU32 piece p ∧ IsU32 offset o ∧ IsU32 length l ∧ IsFrame 6 (p ++ o ++ l) bs

/-- A handshake: 19, the protocol name, 8 flag bytes, info hash, peer id. -/
def IsHandshake (flags hash peerId bs : List UInt8) : Prop :=
  flags.length = 8 ∧ hash.length = 20 ∧ peerId.length = 20 ∧
    bs = 19 :: "BitTorrent protocol".toUTF8.toList ++ flags ++ hash ++ peerId

/-- An extension message (id 20): extended id, a bencoded dictionary, and data. -/
def IsExtension (ext : UInt8) (d : List (List UInt8 × BVal)) (data bs : List UInt8) : Prop :=
  ∃ doc, IsBencode (.dict d) doc ∧ IsFrame 20 (ext :: doc ++ data) bs

/-- Bit `i` of a bitfield, bits being numbered from the most significant bit of the first byte. -/
def bitAt (bf : List UInt8) (i : Nat) : Option Bool :=
  bf[i / 8]?.map fun b => b.toNat.testBit (7 - i % 8)

end Spec
