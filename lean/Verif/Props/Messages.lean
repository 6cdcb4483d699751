/-
Properties C21 - C27: peer wire messages.
-/
import Verif.Proofs.Messages

namespace RustBit
open Spec Decoder

/-! ### C21 -/

/-- C21: "interested" is a framed message. -/
theorem C21_interested : IsFrame 2 [] newInterested.asBytes := ⟨beU32 1, isU32_beU32 1 (by decide), rfl⟩

/-- C21: a block request is a framed message, whatever its arguments. -/
theorem C21_request (p o l : Nat) : ∃ body, IsFrame 6 body (newRequest p o l).asBytes :=
  ⟨beU32 p ++ beU32 o ++ beU32 l, beU32 13, isU32_beU32 13 (by decide), by
    simp [newRequest, Message.asBytes, Message.contentBytes, RequestMessage.asBytes]⟩

/-- C21: a metadata request can be built for every extension id and 64-bit index, and is framed. -/
theorem C21_metadata (ext : UInt8) (i : Nat) (h : i < 2 ^ 64) :
    ∃ m body, (newMetadata ext i : Res Unit Message) = .ok m ∧ IsFrame 20 body m.asBytes := by
  refine ⟨_, ext :: metadataRequestData i, newMetadata_eq ext i h, beU32 ((metadataRequestData i).length + 2), ?_, ?_⟩
  · have hl := decimal_length_lt 20 i (by decide) (Nat.lt_trans h (by decide))
    have hm : (metadataRequestData i).length = (decimal i).length + 24 := by
      simp [metadataRequestData]
    have := isU32_beU32 ((metadataRequestData i).length + 2) (by omega)
    simpa using this
  · rw [asBytes_metadata]

example : (12345678901 : Nat) < 2 ^ 64 := by decide

/-- C21: the extension handshake is framed. -/
theorem C21_extension_handshake : ∃ body, IsFrame 20 body extensionHandshakeBytes :=
  ⟨0 :: b!"d1:md11:ut_metadatai1e6:ut_pexi2ee13:metadata_sizei28282ee", beU32 60,
    isU32_beU32 60 (by decide), rfl⟩

/-- C21: the handshake is 68 bytes for a 20-byte hash and a 20-byte peer id. -/
theorem C21_handshake (h id : Bytes) (hh : h.length = 20) (hi : id.length = 20) :
    (newHandshake h id).asBytes.length = 68 := by
  simp [newHandshake, Message.asBytes, HandshakeMessage.asBytes, HandshakeMessage.new, hh, hi]

example : (List.replicate 20 (7 : UInt8)).length = 20 := rfl

/-! ### C22 -/

/-- C22: the bytes written for a request are, in the wire format, a request for exactly that piece,
offset and length. -/
theorem C22_request_wire (p o l : Nat) (hp : p < 2 ^ 32) (ho : o < 2 ^ 32) (hl : l < 2 ^ 32) :
    IsBlockRequest p o l (newRequest p o l).asBytes :=
  ⟨beU32 p, beU32 o, beU32 l, isU32_beU32 p hp, isU32_beU32 o ho, isU32_beU32 l hl, beU32 13,
    isU32_beU32 13 (by decide), by
    simp [newRequest, Message.asBytes, Message.contentBytes, RequestMessage.asBytes]⟩

example : (4294967295 : Nat) < 2 ^ 32 := by decide

/-- The wire format of requests is unambiguous: the bytes determine the three numbers. -/
theorem C22_wire_unambiguous (p o l p' o' l' : Nat) (bs : Bytes) (h : IsBlockRequest p o l bs)
    (h' : IsBlockRequest p' o' l' bs) : p = p' ∧ o = o' ∧ l = l' := by
  obtain ⟨a, b, c, ⟨a1, a2⟩, ⟨b1, b2⟩, ⟨c1, c2⟩, n, ⟨n1, -⟩, e⟩ := h
  obtain ⟨a', b', c', ⟨a1', a2'⟩, ⟨b1', b2'⟩, ⟨c1', c2'⟩, n', ⟨n1', -⟩, e'⟩ := h'
  rw [e'] at e
  obtain ⟨-, e⟩ := List.append_inj e (by omega)
  simp only [List.cons.injEq, true_and, List.append_assoc] at e
  obtain ⟨e1, e⟩ := List.append_inj e (by omega)
  obtain ⟨e2, e3⟩ := List.append_inj e (by omega)
  subst e1 e2 e3
  omega

/-- C22: `RequestMessage::from_bytes` inverts `as_bytes`. -/
theorem C22_request_roundtrip (r : RequestMessage) (hp : r.pieceIndex < 2 ^ 32)
    (hb : r.blockIndex < 2 ^ 32) : (RequestMessage.fromBytes r.asBytes : Res Unit _) = .ok r := by
  rw [request_fromBytes_of_le (by simp [RequestMessage.asBytes, beU32_length]; omega)]
  have h4 : (beU32 r.pieceIndex).length = 4 := rfl
  have h4' : (beU32 r.blockIndex).length = 4 := rfl
  have e1 : r.asBytes.take 4 = beU32 r.pieceIndex := by
    rw [RequestMessage.asBytes, List.append_assoc, List.take_left' h4]
  have e2 : (r.asBytes.take 8).drop 4 = beU32 r.blockIndex := by
    rw [RequestMessage.asBytes, List.take_left' (by simp [h4, h4']), List.drop_left' h4]
  have e3 : r.asBytes.drop 8 = r.blockData := by
    rw [RequestMessage.asBytes, List.drop_left' (by simp [h4, h4'])]
  rw [e1, e2, e3, ofBe_beU32 _ hp, ofBe_beU32 _ hb]

example : (RequestMessage.mk 4294967295 16384 [1, 2, 3]).pieceIndex < 2 ^ 32 := by decide

/-! ### C23 -/

/-- C23: the handshake has the BEP 3 layout, with the bit set that announces BEP 10 extensions. -/
theorem C23_handshake_layout (h id : Bytes) (hh : h.length = 20) (hi : id.length = 20) :
    IsHandshake [0, 0, 0, 0, 0, 0x10, 0, 0] h id (newHandshake h id).asBytes := by
  refine ⟨rfl, hh, hi, ?_⟩
  have : ("BitTorrent protocol".toUTF8.toList : Bytes) = b!"BitTorrent protocol" := by decide +kernel
  rw [this]
  simp [newHandshake, Message.asBytes, HandshakeMessage.asBytes, HandshakeMessage.new]

/-- C23: parsing the bytes of a handshake gives back the same hash and peer id. -/
theorem C23_handshake_roundtrip (h id : Bytes) (hh : h.length = 20) (hi : id.length = 20) :
    (HandshakeMessage.fromBytes (newHandshake h id).asBytes : Res Unit _) =
      .ok (HandshakeMessage.new h id) := by
  have e : (newHandshake h id).asBytes =
      (0x13 :: b!"BitTorrent protocol" ++ [0, 0, 0, 0, 0, 0x10, 0, 0]) ++ h ++ id := by
    simp [newHandshake, Message.asBytes, HandshakeMessage.asBytes, HandshakeMessage.new]
  have hp : ((0x13 :: b!"BitTorrent protocol" ++ [0, 0, 0, 0, 0, 0x10, 0, 0]) : Bytes).length = 28 := rfl
  have hlen : (newHandshake h id).asBytes.length = 68 := C21_handshake h id hh hi
  obtain ⟨b, hb, hfrom⟩ := handshake_fromBytes_of_le (ε := Unit) (bs := (newHandshake h id).asBytes) (by omega)
  rw [hfrom]
  have t28 : (newHandshake h id).asBytes.take 28 =
      0x13 :: b!"BitTorrent protocol" ++ [0, 0, 0, 0, 0, 0x10, 0, 0] := by
    rw [e, List.append_assoc, List.take_left' hp]
  have t20 : (newHandshake h id).asBytes.take 20 = 0x13 :: b!"BitTorrent protocol" := by
    have := congrArg (List.take 20) t28
    rw [List.take_take] at this
    simpa using this
  have t48 : ((newHandshake h id).asBytes.take 48).drop 28 = h := by
    rw [e, List.take_left' (by simp [hh]), List.drop_left' hp]
  have t68 : ((newHandshake h id).asBytes.take 68).drop 48 = id := by
    rw [List.take_of_length_le (by omega), e, List.drop_left' (by simp [hh])]
  rw [t20, t28, t48, t68]
  rw [e] at hb
  have : b = 0x13 := by simpa using hb.symm
  subst this
  rfl

/-- The peer-side hash that is compared: bytes 28 to 48 of any 68-byte handshake. -/
theorem C23_hash_position {ε : Type} (flags h id bs : Bytes) (hb : IsHandshake flags h id bs) :
    ∃ m, (HandshakeMessage.fromBytes bs : Res ε _) = .ok m ∧ m.infoHash = h ∧ m.peerId = id := by
  obtain ⟨h1, h2, h3, e⟩ := hb
  have : ("BitTorrent protocol".toUTF8.toList : Bytes) = b!"BitTorrent protocol" := by decide +kernel
  rw [this] at e
  have hp : (19 :: b!"BitTorrent protocol" ++ flags : Bytes).length = 28 := by simp [h1]
  have hlen : bs.length = 68 := by rw [e]; simp [h1, h2, h3]
  obtain ⟨b, -, hfrom⟩ := handshake_fromBytes_of_le (ε := ε) (bs := bs) (by omega)
  refine ⟨_, hfrom, ?_, ?_⟩
  · show (bs.take 48).drop 28 = h
    rw [e, List.take_left' (by simp [h1, h2]), List.drop_left' hp]
  · show (bs.take 68).drop 48 = id
    rw [List.take_of_length_le (by omega), e, List.drop_left' (by simp [h1, h2])]

example : IsHandshake [0, 0, 0, 0, 0, 0x10, 0, 0] (List.replicate 20 1) (List.replicate 20 2)
    (newHandshake (List.replicate 20 1) (List.replicate 20 2)).asBytes :=
  C23_handshake_layout _ _ rfl rfl

/-! ### C24 -/

/-- C24, exactly which incoming messages are harmless: everything except blocks shorter than 8 bytes,
handshakes shorter than 68 bytes, and extension messages that are empty or whose payload the bencode
decoder does not return from. Missing: those, for which the claim is false (below). -/
theorem C24_new_raw_returns_partial (body : Bytes) (len : Nat) (id : UInt8) :
    (Message.newRaw body len id).returns ↔
      ((id = 6 ∨ id = 7) → 8 ≤ body.length) ∧ (id = 19 → 68 ≤ body.length) ∧
      (id = 20 → ∃ ext payload, body = ext :: payload ∧ (decode payload).returns) := by
  unfold Message.newRaw Message.contentOf
  by_cases h2 : id = 2
  · subst h2; simp [Res.returns]
  by_cases h5 : id = 5
  · subst h5; simp [Res.returns]
  by_cases h67 : id = 7 ∨ id = 6
  · have h67' : id = 6 ∨ id = 7 := h67.symm
    have h20 : id ≠ 20 := by rcases h67 with rfl | rfl <;> decide
    have h19 : id ≠ 19 := by rcases h67 with rfl | rfl <;> decide
    simp only [h2, h5, h67, h67', h19, h20, if_true, if_false, forall_const, false_implies, and_true]
    by_cases hl : 8 ≤ body.length
    · rw [request_fromBytes_of_le hl]; simp [Res.returns, hl]
    · rw [request_fromBytes_panic (by omega)]; simp [Res.returns, hl]
  have h67' : ¬ (id = 6 ∨ id = 7) := fun h => h67 h.symm
  by_cases h20 : id = 20
  · subst h20
    simp only [h2, h5, h67, if_true, if_false, forall_const, h67', false_implies, true_and,
      show (20 : UInt8) ≠ 19 by decide]
    unfold ExtensionMessage.fromBytes
    cases body with
    | nil => simp [sliceFrom, Res.returns]
    | cons ext payload =>
      rw [sliceFrom_of_le (by simp)]
      simp only [Res.bind_ok, List.drop_succ_cons, List.drop_zero, index_zero_cons, List.cons.injEq]
      have hx : (∃ e p, (ext = e ∧ payload = p) ∧ (decode p).returns) ↔ (decode payload).returns :=
        ⟨fun ⟨_, _, ⟨_, h⟩, hr⟩ => by rw [h]; exact hr, fun h => ⟨_, _, ⟨rfl, rfl⟩, h⟩⟩
      rw [hx]
      cases hd : decode payload with
      | ok r =>
        obtain ⟨v, n⟩ := r
        have := decode_ok_le hd
        simp only [Res.mapErr_ok, Res.bind_ok]
        rw [sliceFrom_of_le (by simp; omega)]
        simp [Res.returns]
      | err e => simp [Res.returns]
      | panic => simp [Res.returns]
      | hang => simp [Res.returns]
  · by_cases h19 : id = 19
    · subst h19
      simp only [h2, h5, h67, h20, if_true, if_false, forall_const, h67', false_implies, true_and, and_true]
      by_cases hl : 68 ≤ body.length
      · obtain ⟨b, -, hf⟩ := handshake_fromBytes_of_le (ε := Bytes) hl
        rw [hf]; simp [Res.returns, hl]
      · rw [handshake_fromBytes_panic (by omega)]; simp [Res.returns, hl]
    · simp [h2, h5, h67, h20, h19, h67', Res.returns]

example : (Message.newRaw (0 :: b!"d1:md11:ut_metadatai1eee") 26 20).returns := by
  rw [C24_new_raw_returns_partial]
  exact ⟨by decide, by decide, fun _ => ⟨0, _, rfl, by
    show Res.returns (decode _)
    have : decode b!"d1:md11:ut_metadatai1eee" =
      .ok (.dictionary [(b!"m", .dictionary [(b!"ut_metadata", .integer 1)])], 24) := rfl
    rw [this]; trivial⟩⟩

/-- C24: messages with a content the client ignores are always accepted, with any body. -/
theorem C24_other_ids_ok (body : Bytes) (len : Nat) (id : UInt8)
    (h : id ∉ ([6, 7, 19, 20] : List UInt8)) : ∃ m, Message.newRaw body len id = .ok m ∧ m.id = id := by
  simp only [List.mem_cons, List.not_mem_nil, or_false, not_or] at h
  obtain ⟨h6, h7, h19, h20⟩ := h
  unfold Message.newRaw Message.contentOf
  by_cases h2 : id = 2
  · simp [h2]
  · by_cases h5 : id = 5 <;> simp [h2, h5, h6, h7, h19, h20]

example : (0 : UInt8) ∉ ([6, 7, 19, 20] : List UInt8) := by decide

/-- The full C24 is false: a block message with an empty body panics. -/
theorem C24_refuted_short_block : Message.newRaw [] 0 7 = .panic := rfl

/-- The full C24 is false: an extension message with no body panics, as does one whose dictionary is
cut off. -/
theorem C24_refuted_extension_panics :
    Message.newRaw [] 0 20 = .panic ∧ Message.newRaw (0 :: b!"d1:md") 6 20 = .panic := ⟨rfl, rfl⟩

/-- The full C24 is false: an extension message containing a list with an empty string is never
decoded to the end, no matter how long one waits. -/
theorem C24_refuted_extension_hangs : Message.newRaw (0 :: b!"l0:e") 5 20 = .hang ∧
    ∀ f, decodeF f b!"l0:e" 0 = .hang := by
  have h : decodeAt b!"l0:e" 0 = .hang := rfl
  exact ⟨rfl, decodeAt_hang_iff.mp h⟩

/-! ### C25 -/

/-- C25: the bit vector has eight entries per byte and entry `i` is bit `7 - i % 8` of byte `i / 8`. -/
theorem C25_bitfield (bf : Bytes) :
    (bitVector bf).length = 8 * bf.length ∧ ∀ i, (bitVector bf)[i]? = bitAt bf i := by
  have hb : ∀ b : UInt8, ∀ j, j < 8 → (byteBits b)[j]? = some (b.toNat.testBit (7 - j)) := by
    intro b j hj
    have key : ∀ n : Fin 256, ∀ j : Fin 8, (byteBits (UInt8.ofNat n.val))[j.val]? =
        some (n.val.testBit (7 - j.val)) := by decide +kernel
    have := key ⟨b.toNat, b.toNat_lt⟩ ⟨j, hj⟩
    simpa using this
  have hlen : ∀ b : UInt8, (byteBits b).length = 8 := fun _ => rfl
  induction bf with
  | nil => exact ⟨rfl, fun i => by simp [bitVector, bitAt]⟩
  | cons b t ih =>
    obtain ⟨ih1, ih2⟩ := ih
    have hv : bitVector (b :: t) = byteBits b ++ bitVector t := rfl
    refine ⟨by rw [hv, List.length_append, hlen, ih1, List.length_cons]; omega, fun i => ?_⟩
    rw [hv]
    by_cases hi : i < 8
    · rw [List.getElem?_append_left (by rw [hlen]; exact hi), hb b i hi, bitAt,
        Nat.div_eq_of_lt hi, Nat.mod_eq_of_lt hi]
      rfl
    · rw [List.getElem?_append_right (by rw [hlen]; omega), hlen, ih2, bitAt, bitAt]
      have e1 : i / 8 = (i - 8) / 8 + 1 := by omega
      have e2 : (i - 8) % 8 = i % 8 := by omega
      rw [e1, e2, List.getElem?_cons_succ]

example : bitVector [0xA0, 1] = [true, false, true, false, false, false, false, false,
    false, false, false, false, false, false, false, true] := rfl

/-! ### C26 -/

/-- C26: a metadata request is an extension message with the given extended id whose dictionary is
`{msg_type: 0, piece: i}` and which carries no data. -/
theorem C26_metadata_request (ext : UInt8) (i : Nat) (h : i < 2 ^ 64) :
    ∃ m, (newMetadata ext i : Res Unit Message) = .ok m ∧
      IsExtension ext [(b!"msg_type", .int 0), (b!"piece", .int i)] [] m.asBytes := by
  refine ⟨_, newMetadata_eq ext i h, metadataRequestData i, isBencode_metadataRequest i,
    beU32 ((metadataRequestData i).length + 2), ?_, ?_⟩
  · have hl := decimal_length_lt 20 i (by decide) (Nat.lt_trans h (by decide))
    have hm : (metadataRequestData i).length = (decimal i).length + 24 := by
      simp [metadataRequestData]
    have := isU32_beU32 ((metadataRequestData i).length + 2) (by omega)
    simpa using this
  · rw [asBytes_metadata]; simp

example : (3 : Nat) < 2 ^ 64 := by decide

/-- C26: read back by the client's own parser, the request names the same piece. -/
theorem C26_metadata_request_roundtrip (ext : UInt8) (i : Nat) (h : i < 2 ^ 64) (data : Bytes) :
    ∃ e, ExtensionMessage.fromBytes (ext :: (metadataRequestData i ++ data)) = .ok e ∧
      e.id = ext ∧ e.msgType = some 0 ∧ e.piece = some i ∧ e.data = data := by
  refine ⟨_, extension_fromBytes_doc ext _ _ data (isBencode_metadataRequest i)
    (readable_metadataRequest i h), rfl, rfl, ?_, rfl⟩
  simp [intFor, lastFor]

/-! ### C27 -/

/-- C27, for dictionaries the decoder supports: the data is exactly what follows the dictionary, the
fields are the last integers given for their keys, and the extension ids are the low bytes of the
integers in the last `m` dictionary. Missing: dictionaries with negative or huge integers, non-UTF-8
keys, or empty string values, for which the claim is false (below). -/
theorem C27_extension_payload_partial (id : UInt8) (d : List (Bytes × BVal)) (doc data : Bytes)
    (hd : IsBencode (.dict d) doc) (hr : Readable (.dict d)) :
    ∃ e, ExtensionMessage.fromBytes (id :: (doc ++ data)) = .ok e ∧ e.id = id ∧ e.data = data ∧
      e.msgType = intFor b!"msg_type" d ∧ e.piece = intFor b!"piece" d ∧
      e.metadataSize = intFor b!"metadata_size" d ∧
      ∀ k, mapGet e.extensions k = (intFor k (dictFor b!"m" d)).map UInt8.ofNat :=
  ⟨_, extension_fromBytes_doc id d doc data hd hr, rfl, rfl, rfl, rfl, rfl, extensionsOf_mapGet d⟩

example : ∃ d, IsBencode (.dict d) (metadataRequestData 5) ∧ Readable (.dict d) ∧
    intFor b!"piece" d = some 5 :=
  ⟨_, isBencode_metadataRequest 5, readable_metadataRequest 5 (by decide), rfl⟩

/-- The full C27 is false: a dictionary with a negative integer is rejected as a whole, and a list
with an empty string in the header makes the parser run for ever. -/
theorem C27_refuted : ExtensionMessage.fromBytes (1 :: b!"d8:msg_typei1e1:xi-1ee") =
      .err b!"Error during decoding" ∧
    ExtensionMessage.fromBytes (1 :: b!"d8:msg_typei1e1:xl0:ee") = .hang := by
  constructor <;> decide +kernel

end RustBit
