/-
Properties C24 and C27 exactly: which messages are accepted, refused, panic or hang, and what is read from them.
-/
import Verif.Props.Messages
import Verif.Props.Bencode
import Verif.Spec.Extension

namespace RustBit
open Spec Decoder

theorem lenient_ne_nil {v : Metainfo} {bs : Bytes} (h : Lenient v bs) : bs ≠ [] := by
  cases h with
  | int => simp
  | str h =>
    cases h
    simp
  | list => simp
  | dict => simp

theorem decode_ok_iff_header (c : Bytes) (v : Metainfo) (n : Nat) : decode c = .ok (v, n) ↔ Header v n c := by
  cases n with
  | zero =>
    rw [C11_nothing_exactly_partial]
    constructor
    · rintro ⟨h1, h2⟩; exact .inr ⟨rfl, h1, h2⟩
    · rintro (⟨-, h⟩ | ⟨-, h1, h2⟩)
      · exact absurd rfl (lenient_ne_nil h)
      · exact ⟨h1, h2⟩
  | succ n =>
    rw [C11_accepts_exactly_partial c v (n + 1) (by omega)]
    constructor
    · exact .inl
    · rintro (h | ⟨h, -⟩)
      · exact h
      · cases h

theorem mapGet_find? {α : Type} (m : List (Bytes × α)) (k : Bytes) : mapGet m k = (m.find? (fun e => e.1 = k)).map (·.2) := by
  induction m with
  | nil => rfl
  | cons e t ih =>
    obtain ⟨k', v⟩ := e
    by_cases h : k' = k
    · simp [mapGet, List.find?, h]
    · simp [mapGet, List.find?, h, ih]

theorem okValue_int (v : Metainfo) (k : Bytes) : okValue (v.getIntegerFromDict k) = intAt k v := by
  cases v with
  | dictionary m =>
    simp only [Metainfo.getIntegerFromDict, Metainfo.getDictContent, Res.bind_ok, mapGet_find?, intAt]
    cases m.find? (fun e => e.1 = k) with
    | none => rfl
    | some e =>
      obtain ⟨k', x⟩ := e
      cases x <;> rfl
  | _ => rfl

theorem extensionsOf_eq (v : Metainfo) : ExtensionMessage.extensionsOf v = match valueAt b!"m" v with
    | .dictionary m => buildExtensionsMap m
    | _ => [] := by
  cases v with
  | dictionary m =>
    simp only [ExtensionMessage.extensionsOf, Metainfo.getValueFromDict, Metainfo.getDictContent, Res.bind_ok, mapGet_find?, valueAt]
    cases m.find? (fun e => e.1 = b!"m") with
    | none => rfl
    | some e =>
      obtain ⟨k', x⟩ := e
      cases x <;> rfl
  | _ => rfl

theorem keysUnique_entry {m : List (Bytes × Metainfo)} (h : KeysUniqueEntries m) : ∀ e ∈ m, KeysUnique e.2 := by
  induction m with
  | nil => intro e he; cases he
  | cons a t ih =>
    intro e he
    obtain ⟨k, v⟩ := a
    simp only [KeysUniqueEntries] at h
    rcases List.mem_cons.mp he with rfl | he
    · exact h.1
    · exact ih h.2 e he

theorem extensionsOf_intAt {v : Metainfo} (h : KeysUnique v) (k : Bytes) :
    mapGet (ExtensionMessage.extensionsOf v) k = (intAt k (valueAt b!"m" v)).map UInt8.ofNat := by
  rw [extensionsOf_eq]
  have hu : KeysUnique (valueAt b!"m" v) := by
    cases v with
    | dictionary m =>
      simp only [valueAt]
      cases hf : m.find? (fun e => e.1 = b!"m") with
      | none => trivial
      | some e => exact keysUnique_entry h.2 e (List.mem_of_find?_eq_some hf)
    | _ => trivial
  generalize valueAt b!"m" v = x at hu
  cases x with
  | dictionary m =>
    simp only [buildExtensionsMap_mapGet m k hu.1, mapGet_find?, intAt]
    cases m.find? (fun e => e.1 = k) with
    | none => rfl
    | some e => obtain ⟨k', y⟩ := e; cases y <;> rfl
  | _ => rfl

theorem header_keysUnique {v : Metainfo} {n : Nat} {c : Bytes} (h : Header v n c) : KeysUnique v := by
  rcases h with ⟨-, h⟩ | ⟨-, rfl, -⟩
  · exact (lenient_fit h).2
  · trivial

/-! ### C27 -/

/-- What is read from an extension message that is accepted: the fields and the extension ids are those of the document at its start,
and the data is what follows. -/
theorem C27_read (id : UInt8) (payload : Bytes) (e : ExtensionMessage) (h : ExtensionMessage.fromBytes (id :: payload) = .ok e) :
    ∃ v n, Header v n payload ∧ e.id = id ∧ e.data = payload.drop n ∧ e.msgType = intAt b!"msg_type" v ∧ e.piece = intAt b!"piece" v ∧
      e.metadataSize = intAt b!"metadata_size" v ∧ ∀ k, mapGet e.extensions k = (intAt k (valueAt b!"m" v)).map UInt8.ofNat := by
  unfold ExtensionMessage.fromBytes at h
  rw [sliceFrom_of_le (by simp)] at h
  simp only [Res.bind_ok, List.drop_succ_cons, List.drop_zero, index_zero_cons] at h
  cases hd : decode payload with
  | ok r =>
    obtain ⟨v, n⟩ := r
    have hl := decode_ok_le hd
    rw [hd] at h
    simp only [Res.mapErr_ok, Res.bind_ok] at h
    rw [sliceFrom_of_le (by simp; omega)] at h
    simp only [Res.bind_ok, List.drop_succ_cons, Res.ok.injEq] at h
    subst h
    have hh := (decode_ok_iff_header _ _ _).mp hd
    exact ⟨v, n, hh, rfl, rfl, okValue_int _ _, okValue_int _ _, okValue_int _ _, extensionsOf_intAt (header_keysUnique hh)⟩
  | err e => simp [hd] at h
  | panic => simp [hd] at h
  | hang => simp [hd] at h

/-- Exactly which extension messages are accepted, refused, panic, and are never finished. -/
theorem C27_exact (id : UInt8) (payload : Bytes) :
    ((∃ e, ExtensionMessage.fromBytes (id :: payload) = .ok e) ↔ ∃ v n, Header v n payload) ∧
    ((∃ e, ExtensionMessage.fromBytes (id :: payload) = .err e) ↔ Malformed payload) ∧
    (ExtensionMessage.fromBytes (id :: payload) = .panic ↔ Cut payload) ∧
    (ExtensionMessage.fromBytes (id :: payload) = .hang ↔ Stuck payload) := by
  have hc := C05_panics_exactly_partial payload
  have hs := C05_hangs_exactly_partial payload
  rw [show (∀ f, decodeF f payload 0 = .hang) ↔ decode payload = .hang from decodeAt_hang_iff.symm] at hs
  have hk := decode_ok_iff_header payload
  simp only [Malformed, ← hc, ← hs, ← hk]
  unfold ExtensionMessage.fromBytes
  rw [sliceFrom_of_le (by simp)]
  simp only [Res.bind_ok, List.drop_succ_cons, List.drop_zero, index_zero_cons]
  cases hd : decode payload with
  | ok r =>
    obtain ⟨v, n⟩ := r
    have hl := decode_ok_le hd
    simp only [Res.mapErr_ok, Res.bind_ok]
    rw [sliceFrom_of_le (by simp; omega)]
    simp
  | err e => simp
  | panic => simp
  | hang => simp

/-- Non-vacuity: a message of each kind. -/
example : (∃ v n, Header v n b!"d8:msg_typei1e5:piecei0eedata") ∧ Malformed b!"i-1e" ∧ Cut b!"d8:msg_typ" ∧ Stuck b!"d1:al0:ee" :=
  ⟨(C27_exact 0 _).1.mp ⟨⟨0, some 1, none, [], some 0, b!"data"⟩, by decide +kernel⟩,
    (C27_exact 0 _).2.1.mp ⟨b!"Error during decoding", by decide +kernel⟩,
    (C27_exact 0 _).2.2.1.mp (by decide +kernel), (C27_exact 0 _).2.2.2.mp (by decide +kernel)⟩

/-! ### C24 -/

/-- Exactly which messages of a peer make the program panic: short blocks and requests, short handshakes, and extension messages that
are empty or end too early. -/
theorem C24_panics_exactly (body : Bytes) (len : Nat) (id : UInt8) :
    Message.newRaw body len id = .panic ↔
      ((id = 6 ∨ id = 7) ∧ body.length < 8) ∨ (id = 19 ∧ body.length < 68) ∨
      (id = 20 ∧ (body = [] ∨ ∃ ext payload, body = ext :: payload ∧ Cut payload)) := by
  unfold Message.newRaw Message.contentOf
  by_cases h2 : id = 2
  · subst h2; simp
  by_cases h5 : id = 5
  · subst h5; simp
  by_cases h67 : id = 7 ∨ id = 6
  · have h67' : id = 6 ∨ id = 7 := h67.symm
    have h20 : id ≠ 20 := by rcases h67 with rfl | rfl <;> decide
    have h19 : id ≠ 19 := by rcases h67 with rfl | rfl <;> decide
    simp only [h2, h5, h67, h67', h19, h20, if_true, if_false, false_and, or_false, true_and]
    by_cases hl : 8 ≤ body.length
    · rw [request_fromBytes_of_le hl]; simp; omega
    · rw [request_fromBytes_panic (by omega)]; simp; omega
  have h67' : ¬ (id = 6 ∨ id = 7) := fun h => h67 h.symm
  by_cases h20 : id = 20
  · subst h20
    simp only [h2, h5, h67, if_true, if_false, h67', false_and, false_or, show (20 : UInt8) ≠ 19 by decide, true_and]
    cases body with
    | nil => simp [ExtensionMessage.fromBytes, sliceFrom]
    | cons ext payload =>
      have he := (C27_exact ext payload).2.2.1
      simp only [reduceCtorEq, List.cons.injEq, false_or]
      have hx : (∃ e p, (ext = e ∧ payload = p) ∧ Cut p) ↔ Cut payload :=
        ⟨fun ⟨_, _, ⟨_, h⟩, hr⟩ => by rw [h]; exact hr, fun h => ⟨_, _, ⟨rfl, rfl⟩, h⟩⟩
      rw [hx, ← he]
      cases ExtensionMessage.fromBytes (ext :: payload) <;> simp
  · by_cases h19 : id = 19
    · subst h19
      simp only [h2, h5, h67, h20, if_true, if_false, h67', false_and, false_or, or_false, true_and]
      by_cases hl : 68 ≤ body.length
      · obtain ⟨b, -, hf⟩ := handshake_fromBytes_of_le (ε := Bytes) hl
        rw [hf]; simp; omega
      · rw [handshake_fromBytes_panic (by omega)]; simp; omega
    · simp [h2, h5, h67, h20, h19, h67']

/-- Exactly the messages the program never gets beyond: extension messages with a list that holds something other than values. -/
theorem C24_hangs_exactly (body : Bytes) (len : Nat) (id : UInt8) :
    Message.newRaw body len id = .hang ↔ id = 20 ∧ ∃ ext payload, body = ext :: payload ∧ Stuck payload := by
  unfold Message.newRaw Message.contentOf
  by_cases h20 : id = 20
  · subst h20
    simp only [show (20 : UInt8) ≠ 2 by decide, show (20 : UInt8) ≠ 5 by decide, show ¬ ((20 : UInt8) = 7 ∨ (20 : UInt8) = 6) by decide,
      if_true, if_false, true_and]
    cases body with
    | nil => simp [ExtensionMessage.fromBytes, sliceFrom]
    | cons ext payload =>
      have he := (C27_exact ext payload).2.2.2
      simp only [List.cons.injEq]
      have hx : (∃ e p, (ext = e ∧ payload = p) ∧ Stuck p) ↔ Stuck payload :=
        ⟨fun ⟨_, _, ⟨_, h⟩, hr⟩ => by rw [h]; exact hr, fun h => ⟨_, _, ⟨rfl, rfl⟩, h⟩⟩
      rw [hx, ← he]
      cases ExtensionMessage.fromBytes (ext :: payload) <;> simp
  · simp only [h20, if_false, false_and, iff_false]
    have hr : (RequestMessage.fromBytes body : Res Bytes _) ≠ .hang := by
      unfold RequestMessage.fromBytes slice sliceFrom; repeat' split <;> simp
    have hh : (HandshakeMessage.fromBytes body : Res Bytes _) ≠ .hang := by
      by_cases hl : 68 ≤ body.length
      · obtain ⟨b, -, hf⟩ := handshake_fromBytes_of_le (ε := Bytes) hl
        rw [hf]; simp
      · rw [handshake_fromBytes_panic (by omega)]; simp
    repeat' split
    all_goals first
      | (simp; done)
      | (clear hh; revert hr; cases (RequestMessage.fromBytes body : Res Bytes _) <;> simp; done)
      | (clear hr; revert hh; cases (HandshakeMessage.fromBytes body : Res Bytes _) <;> simp; done)

/-- Non-vacuity: messages of both kinds. -/
example : Message.newRaw (1 :: b!"d1:ai1") 7 20 = .panic ∧ Message.newRaw (1 :: b!"d1:al0:ee") 9 20 = .hang := by
  constructor <;> decide +kernel

end RustBit
