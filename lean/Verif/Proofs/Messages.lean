/- Lemmas about messages. -/
import Verif.Model.Messages
import Verif.Spec.Messages
import Verif.Proofs.Info

namespace RustBit
open Spec Decoder

theorem toNat_ofNat_mod (n : Nat) : (UInt8.ofNat (n % 256)).toNat = n % 256 := by
  simp

theorem isU32_beU32 (n : Nat) (h : n < 2 ^ 32) : IsU32 n (beU32 n) := by
  refine ⟨rfl, ?_⟩
  simp only [beU32, beValue, toNat_ofNat_mod, List.length_cons, List.length_nil]
  omega

theorem ofBe_eq_beValue (bs : Bytes) : ofBe bs = beValue bs := by
  have : ∀ a, bs.foldl (fun acc (b : UInt8) => acc * 256 + b.toNat) a = a * 256 ^ bs.length + beValue bs := by
    induction bs with
    | nil => intro a; simp [beValue]
    | cons b t ih =>
      intro a
      simp only [List.foldl_cons, ih, List.length_cons, beValue, Nat.add_mul, Nat.pow_succ]
      rw [Nat.mul_assoc, Nat.mul_comm 256]; omega
  simpa [ofBe] using this 0

theorem beU32_length (n : Nat) : (beU32 n).length = 4 := rfl

theorem ofBe_beU32 (n : Nat) (h : n < 2 ^ 32) : ofBe (beU32 n) = n := by
  rw [ofBe_eq_beValue]; exact (isU32_beU32 n h).2

theorem ofBe_lt (bs : Bytes) : ofBe bs < 256 ^ bs.length := by
  rw [ofBe_eq_beValue]
  induction bs with
  | nil => simp [beValue]
  | cons b t ih =>
    simp only [beValue, List.length_cons, Nat.pow_succ]
    have := b.toNat_lt
    have : b.toNat * 256 ^ t.length ≤ 255 * 256 ^ t.length := Nat.mul_le_mul_right _ (by omega)
    omega

theorem beU32_ofBe (bs : Bytes) (h : bs.length = 4) : beU32 (ofBe bs) = bs := by
  match bs, h with
  | [a, b, c, d], _ =>
    have ha := a.toNat_lt; have hb := b.toNat_lt; have hc := c.toNat_lt; have hd := d.toNat_lt
    simp only [ofBe, List.foldl_cons, List.foldl_nil, beU32]
    have e : ∀ (x : UInt8) (n : Nat), n = x.toNat → UInt8.ofNat n = x := by
      intro x n h; subst h; simp
    simp only [List.cons.injEq, and_true]
    refine ⟨e _ _ ?_, e _ _ ?_, e _ _ ?_, e _ _ ?_⟩ <;> omega

theorem isU32_unique {n : Nat} {a b : Bytes} (ha : IsU32 n a) (hb : IsU32 n b) : a = b := by
  rw [← beU32_ofBe a ha.1, ← beU32_ofBe b hb.1, ofBe_eq_beValue, ofBe_eq_beValue, ha.2, hb.2]

theorem index_zero_cons {ε α : Type} (a : α) (l : List α) : (index (a :: l) 0 : Res ε α) = .ok a := rfl

theorem sliceFrom_of_le {ε α : Type} {l : List α} {i : Nat} (h : i ≤ l.length) :
    (sliceFrom l i : Res ε _) = .ok (l.drop i) := by simp [sliceFrom, h]

theorem request_fromBytes_of_le {ε : Type} {bs : Bytes} (h : 8 ≤ bs.length) :
    (RequestMessage.fromBytes bs : Res ε _) =
      .ok ⟨ofBe (bs.take 4), ofBe ((bs.take 8).drop 4), bs.drop 8⟩ := by
  rw [RequestMessage.fromBytes, slice_of_le (by omega) (by omega), slice_of_le (by omega) (by omega),
    sliceFrom_of_le h]
  rfl

theorem request_fromBytes_panic {ε : Type} {bs : Bytes} (h : bs.length < 8) :
    (RequestMessage.fromBytes bs : Res ε _) = .panic := by
  rw [RequestMessage.fromBytes]
  by_cases h4 : 4 ≤ bs.length
  · rw [slice_of_le (by omega) (by omega)]
    simp only [Res.bind_ok, slice]
    rw [if_neg (by omega)]; rfl
  · simp only [slice]
    rw [if_neg (by omega)]; rfl

theorem handshake_fromBytes_of_le {ε : Type} {bs : Bytes} (h : 68 ≤ bs.length) :
    ∃ b, bs[0]? = some b ∧ (HandshakeMessage.fromBytes bs : Res ε _) =
      .ok ⟨b, (bs.take 20).drop 1, (bs.take 28).drop 20, (bs.take 48).drop 28, (bs.take 68).drop 48⟩ := by
  refine ⟨bs[0], List.getElem?_eq_getElem (by omega), ?_⟩
  rw [HandshakeMessage.fromBytes, slice_of_le (by omega) (by omega), slice_of_le (by omega) (by omega),
    slice_of_le (by omega) (by omega), slice_of_le (by omega) (by omega), index,
    List.getElem?_eq_getElem (by omega)]
  rfl

theorem handshake_fromBytes_panic {ε : Type} {bs : Bytes} (h : bs.length < 68) :
    (HandshakeMessage.fromBytes bs : Res ε _) = .panic := by
  have hs : ∀ i j : Nat, (slice bs i j : Res ε Bytes) = .panic ∨
      ∃ r, (slice bs i j : Res ε Bytes) = .ok r := by
    intro i j; unfold slice; split <;> simp
  have h5 : (slice bs 48 68 : Res ε Bytes) = .panic := by unfold slice; rw [if_neg (by omega)]
  rw [HandshakeMessage.fromBytes]
  have h0 : (index bs 0 : Res ε UInt8) = .panic ∨ ∃ r, (index bs 0 : Res ε UInt8) = .ok r := by
    unfold index; split <;> simp
  rcases h0 with h0 | ⟨_, h0⟩ <;> rw [h0] <;> try rfl
  rcases hs 1 20 with h1 | ⟨_, h1⟩ <;> rw [h1] <;> try rfl
  rcases hs 20 28 with h2 | ⟨_, h2⟩ <;> rw [h2] <;> try rfl
  rcases hs 28 48 with h3 | ⟨_, h3⟩ <;> rw [h3] <;> try rfl
  rw [h5]; rfl

/-! ### Extension messages -/

theorem okValue_integer (d : List (Bytes × BVal)) (k : Bytes) :
    okValue ((meaning (.dict d)).getIntegerFromDict k) = intFor k d := by
  rw [meaning, Metainfo.getIntegerFromDict, Metainfo.getDictContent]
  simp only [Res.bind_ok, mapGet_meaningEntries, mapGet, Option.or_none, intFor]
  cases lastFor k d with
  | none => rfl
  | some v =>
    cases v <;> simp [meaning, Metainfo.getIntegerContent, okValue]

theorem buildExtensionsMap_mapGet (m : List (Bytes × Metainfo)) (k : Bytes)
    (hn : (m.map Prod.fst).Nodup) :
    mapGet (buildExtensionsMap m) k = match mapGet m k with
      | some (.integer n) => some (UInt8.ofNat n)
      | _ => none := by
  induction m with
  | nil => rfl
  | cons a t ih =>
    obtain ⟨k', v⟩ := a
    simp only [List.map_cons, List.nodup_cons] at hn
    have ih := ih hn.2
    have hk : k' = k → mapGet t k = none := by
      rintro rfl
      have : ∀ (l : List (Bytes × Metainfo)), k' ∉ l.map Prod.fst → mapGet l k' = none := by
        intro l
        induction l with
        | nil => intro _; rfl
        | cons b l ihl =>
          intro h
          simp only [List.map_cons, List.mem_cons, not_or] at h
          obtain ⟨k0, v0⟩ := b
          simp [mapGet, Ne.symm h.1, ihl h.2]
      exact this t hn.1
    have hcons : buildExtensionsMap ((k', v) :: t) =
        (match v with | .integer n => [(k', UInt8.ofNat n)] | _ => []) ++ buildExtensionsMap t := by
      cases v <;> simp [buildExtensionsMap]
    rw [hcons]
    simp only [mapGet]
    by_cases h : k' = k
    · have := hk h
      rw [this] at ih
      cases v <;> simp [h, mapGet, ih]
    · cases v <;> simp [h, mapGet, ih]

theorem extensionsOf_mapGet (d : List (Bytes × BVal)) (k : Bytes) :
    mapGet (ExtensionMessage.extensionsOf (meaning (.dict d))) k =
      (intFor k (dictFor b!"m" d)).map UInt8.ofNat := by
  rw [meaning, ExtensionMessage.extensionsOf, Metainfo.getValueFromDict, Metainfo.getDictContent]
  simp only [Res.bind_ok, mapGet_meaningEntries, mapGet, Option.or_none, dictFor]
  cases lastFor b!"m" d with
  | none => rfl
  | some v =>
    cases v with
    | dict e =>
      simp only [Option.map_some, okValue, meaning, Metainfo.getDictContent, Option.getD_some]
      rw [buildExtensionsMap_mapGet _ _ (meaningEntries_nodup e [] (by simp)), mapGet_meaningEntries]
      simp only [mapGet, Option.or_none, intFor]
      cases lastFor k e with
      | none => rfl
      | some w => cases w <;> simp [meaning]
    | _ => rfl

theorem extension_fromBytes_doc (id : UInt8) (d : List (Bytes × BVal)) (doc data : Bytes)
    (hd : IsBencode (.dict d) doc) (hr : Readable (.dict d)) :
    ExtensionMessage.fromBytes (id :: (doc ++ data)) = .ok
      { id, data, msgType := intFor b!"msg_type" d, metadataSize := intFor b!"metadata_size" d
        piece := intFor b!"piece" d
        extensions := ExtensionMessage.extensionsOf (meaning (.dict d)) } := by
  have := decodeAt_doc hd hr (c := doc ++ data) (p := 0) (rest := data) (by simp)
  rw [ExtensionMessage.fromBytes, sliceFrom_of_le (by simp)]
  simp only [Res.bind_ok, List.drop_succ_cons, List.drop_zero, decode, this, Res.mapErr_ok,
    index_zero_cons]
  rw [sliceFrom_of_le (by simp)]
  simp only [Res.bind_ok, okValue_integer]
  simp

theorem decode_ok_le {c : Bytes} {v : Metainfo} {n : Nat} (h : decode c = .ok (v, n)) :
    n ≤ c.length := by
  have := ((progress _).1 _ _ _ _ h).2.1
  omega

theorem isBencode_metadataRequest (i : Nat) :
    IsBencode (.dict [(b!"msg_type", .int 0), (b!"piece", .int i)]) (metadataRequestData i) := by
  have h0 : IsBencode (.int ((0 : Nat) : Int)) (encUsize 0) := isBencode_encUsize 0
  have hi := isBencode_encUsize i
  have k1 : IsStr b!"msg_type" (encStr b!"msg_type") := isStr_encStr _ (ascii_of_lit rfl)
  have k2 : IsStr b!"piece" (encStr b!"piece") := isStr_encStr _ (ascii_of_lit rfl)
  have := IsBencode.dict (IsEntries.cons k1 h0 (IsEntries.cons k2 hi .nil))
  have e : metadataRequestData i = 100 :: (encStr b!"msg_type" ++ encUsize 0 ++
      (encStr b!"piece" ++ encUsize i ++ [])) ++ [101] := by
    have e1 : encStr b!"msg_type" = b!"8:msg_type" := rfl
    have e2 : encStr b!"piece" = b!"5:piece" := rfl
    have e3 : encUsize 0 = b!"i0e" := rfl
    simp only [metadataRequestData, e1, e2, e3]
    simp [encUsize]
  rw [e]
  exact this

theorem readable_metadataRequest (i : Nat) (h : i < 2 ^ 64) :
    Readable (.dict [(b!"msg_type", .int 0), (b!"piece", .int i)]) := by
  simp only [Readable, ReadableEntries]
  refine ⟨by decide, by decide, by decide, by decide, by decide, ⟨by omega, by omega⟩, trivial⟩

theorem newMetadata_eq {ε : Type} (ext : UInt8) (i : Nat) (h : i < 2 ^ 64) :
    (newMetadata ext i : Res ε Message) = .ok ⟨20, (metadataRequestData i).length + 2,
      .extension ⟨ext, some 0, none, [], some i, []⟩⟩ := by
  have := extension_fromBytes_doc ext _ _ [] (isBencode_metadataRequest i) (readable_metadataRequest i h)
  rw [List.append_nil] at this
  simp only [newMetadata, this]
  rfl

theorem decimal_length_le (n : Nat) : (decimal n).length ≤ n + 1 := by
  have : ∀ f n, (digitsRev f n).length ≤ f := by
    intro f
    induction f with
    | zero => intro n; simp [digitsRev]
    | succ f ih =>
      intro n
      simp only [digitsRev, List.length_cons]
      split
      · simp
      · have := ih (n / 10); omega
  simpa [decimal] using this (n + 1) n

/-- A number below `10^k` has at most `k` digits (`k ≥ 1`). -/
theorem decimal_length_lt (k n : Nat) (hk : 0 < k) (h : n < 10 ^ k) : (decimal n).length ≤ k := by
  have hd := isDecimal_decimal n
  cases hdec : decimal n with
  | nil => exact absurd hdec hd.nonempty
  | cons b t =>
    rw [hdec] at hd
    by_cases hb : b = 48
    · have := hd.noLeadingZero (by simp [hb])
      simp only [List.cons.injEq] at this
      rw [this.2]; simp; omega
    · have hv := hd.denotes
      rw [value_cons] at hv
      have h48 := hd.digits b (by simp)
      have hb' : b.toNat ≠ 48 := fun h => hb (UInt8.toNat_inj.mp h)
      have h1 : 1 * 10 ^ t.length ≤ (b.toNat - 48) * 10 ^ t.length :=
        Nat.mul_le_mul_right _ (by omega)
      have h2 : 10 ^ t.length < 10 ^ k := by omega
      have := (Nat.pow_lt_pow_iff_right (by omega : 1 < 10)).mp h2
      simp only [List.length_cons]; omega

theorem asBytes_metadata (ext : UInt8) (i : Nat) (len : Nat) :
    (Message.mk 20 len (.extension ⟨ext, some 0, none, [], some i, []⟩)).asBytes =
      beU32 len ++ 20 :: ext :: metadataRequestData i := by
  have e3 : encUsize 0 = b!"i0e" := rfl
  have e : (EVal.map [(b!"piece", EVal.usize i), (b!"msg_type", EVal.usize 0)]).encode =
      metadataRequestData i := by
    rw [EVal.encode, encodeEntries, encodeEntries, encodeEntries, EVal.encode, EVal.encode]
    have : sortKeys [(b!"piece", encUsize i), (b!"msg_type", encUsize 0)] =
        [(b!"msg_type", encUsize 0), (b!"piece", encUsize i)] := by
      simp only [sortKeys, insertKey]
      rw [if_neg (show ¬ (keyLe (b!"piece", encUsize i) (b!"msg_type", encUsize 0)) = true by
        show ¬ decide (b!"piece" ≤ b!"msg_type") = true
        decide)]
    have e1 : encStr b!"msg_type" = b!"8:msg_type" := rfl
    have e2 : encStr b!"piece" = b!"5:piece" := rfl
    rw [encMap, this]
    simp only [List.map_cons, List.map_nil, e1, e2, e3, metadataRequestData]
    simp [encUsize]
  simp [Message.asBytes, Message.contentBytes, ExtensionMessage.asBytes, e]

end RustBit
