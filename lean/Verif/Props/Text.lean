import Verif.Proofs.Text
import Verif.Proofs.Info
import Verif.Proofs.Exact
import Verif.Props.Bencode

/-!
Property C72: text is exactly UTF-8.
-/

namespace RustBit
open Spec Decoder

theorem text_iff (bs : Bytes) : validUtf8 bs = true ↔ Text bs :=
  ⟨text_of_valid bs, fun ⟨_, h⟩ => valid_of_text h⟩

theorem keysTextEntries_mapInsert (m : List (Bytes × Metainfo)) (k : Bytes) (v : Metainfo)
    (hm : KeysTextEntries m) (hk : Text k) (hv : KeysText v) : KeysTextEntries (mapInsert m k v) := by
  induction m with
  | nil => exact ⟨hk, hv, trivial⟩
  | cons a t ih =>
    obtain ⟨k', v'⟩ := a
    rw [mapInsert]
    split
    · exact ⟨hk, hv, hm.2.2⟩
    · exact ⟨hm.1, hm.2.1, ih hm.2.2⟩

mutual
theorem lenient_keysText {v : Metainfo} {bs : Bytes} (h : Lenient v bs) : KeysText v := by
  match h with
  | .int _ _ _ _ => trivial
  | .str _ _ => trivial
  | .list hl => exact lenientElems_keysText hl
  | .dict hd => exact lenientEntries_keysText hd trivial
theorem lenientElems_keysText {l : List Metainfo} {bs : Bytes} (h : LenientElems l bs) : KeysTextElems l := by
  match h with
  | .nil => trivial
  | .cons hv hl => exact ⟨lenient_keysText hv, lenientElems_keysText hl⟩
theorem lenientEntries_keysText {acc m : List (Bytes × Metainfo)} {bs : Bytes} (h : LenientEntries acc m bs)
    (ha : KeysTextEntries acc) : KeysTextEntries m := by
  match h with
  | .nil => exact ha
  | .cons _ hu hv hl =>
    exact lenientEntries_keysText hl (keysTextEntries_mapInsert _ _ _ ha ((text_iff _).mp hu) (lenient_keysText hv))
  | .noValue _ hu _ hl =>
    exact lenientEntries_keysText hl (keysTextEntries_mapInsert _ _ _ ha ((text_iff _).mp hu) trivial)
end

/-- C72: in a decoded value every dictionary key, at any depth, is well-formed text. -/
theorem C72_keys_are_text (c : Bytes) (v : Metainfo) (n : Nat) (h : decode c = .ok (v, n)) : KeysText v := by
  by_cases hn : 0 < n
  · exact lenient_keysText (C11_accepts_lenient_partial c v n h hn)
  · have : v = .nothing := (((progress _).1 _ _ _ _ h).2.2 (by omega)).1
    rw [this]; trivial

/-- A dictionary with a key of two characters, one of four bytes. -/
example : decode ([100, 53, 58] ++ utf8 0x41 ++ utf8 0x1F600 ++ b!"i1ee") =
      .ok (.dictionary [(utf8 0x41 ++ utf8 0x1F600, .integer 1)], 12) ∧
    IsText [0x41, 0x1F600] (utf8 0x41 ++ utf8 0x1F600) :=
  ⟨rfl, by simp [Scalar], by simp⟩

/-- C72: a dictionary whose first key is not well-formed text is refused with an error. -/
theorem C72_bad_key_refused (k ks rest : Bytes) (hk : IsStr k ks) (hl : k.length < 2 ^ 64) (hn : ¬ Text k) :
    decode (100 :: ks ++ rest) = .err (.badStringFromBytes (1 + ks.length)) := by
  have e : (100 :: ks ++ rest).drop (0 + 1) = ks ++ rest := by simp
  obtain ⟨b, t, hb, -, hne⟩ := isStr_head hk
  have hd : decodeF 2 (100 :: ks ++ rest) 0 = .err (.badStringFromBytes (1 + ks.length)) := by
    rw [decodeF]
    simp only [List.cons_append, List.getElem?_cons_zero, show (100 : UInt8) ≠ 105 by decide,
      show (100 : UInt8) ≠ 108 by decide, if_false, if_true]
    rw [dictLoop, getElem?_of_drop (b := b) (t := t ++ rest) (by rw [← List.cons_append, e, hb]; rfl)]
    simp only [hne, if_false]
    rw [parseString_of_isStr hk hl (by rw [← List.cons_append]; exact e)]
    simp only [Res.bind_ok]
    rw [if_neg (by rw [text_iff]; exact hn)]
  rw [decode, decodeAt_of_fuel (f := 2) (by rw [hd]; simp), hd]

/-- Surrogates, overlong forms and values beyond the last code point are not text. -/
theorem not_text_examples : ¬ Text [0xED, 0xA0, 0x80] ∧ ¬ Text [0xC0, 0x80] ∧ ¬ Text [0xF4, 0x90, 0x80, 0x80] ∧
    ¬ Text [0xE0, 0x80, 0x80] ∧ ¬ Text [0x80] ∧ ¬ Text [0xC3] := by
  simp only [← text_iff]
  decide

example : IsStr [0xED, 0xA0, 0x80] (b!"3:" ++ [0xED, 0xA0, 0x80]) ∧ ¬ Text [0xED, 0xA0, 0x80] :=
  ⟨isStr_of_eq rfl, not_text_examples.1⟩

/-- C72: a string value is read as text exactly when it is well-formed, and is then unchanged; otherwise an
error is returned. -/
theorem C72_string_values (s : Bytes) :
    (Text s → (Metainfo.string s).getStringContent = .ok s) ∧
    (¬ Text s → (Metainfo.string s).getStringContent = .err .utf8ConversionError) := by
  rw [← text_iff]
  constructor
  · intro h
    simp [Metainfo.getStringContent, h]
  · intro h
    simp [Metainfo.getStringContent, h]

theorem getStringContent_text {m : Metainfo} {s : Bytes} (h : m.getStringContent = .ok s) : Text s := by
  unfold Metainfo.getStringContent at h
  split at h
  · split at h
    · rename_i hv
      cases h
      exact (text_iff _).mp hv
    · cases h
  · cases h

theorem pathComponents_text : ∀ (l : List Metainfo) (p : List Bytes), pathComponents l = .ok p → ∀ s ∈ p, Text s := by
  intro l
  induction l with
  | nil =>
    intro p h
    cases h
    simp
  | cons a t ih =>
    intro p h
    rw [pathComponents] at h
    cases ha : a.getStringContent with
    | ok s =>
      rw [ha] at h
      simp only [Res.bind_ok] at h
      cases ht : pathComponents t with
      | ok r =>
        rw [ht] at h
        simp only [Res.bind_ok, Res.ok.injEq] at h
        subst h
        intro x hx
        rcases List.mem_cons.mp hx with rfl | hx
        · exact getStringContent_text ha
        · exact ih r ht x hx
      | err e => rw [ht] at h; cases h
      | panic => rw [ht] at h; cases h
      | hang => rw [ht] at h; cases h
    | err e => rw [ha] at h; cases h
    | panic => rw [ha] at h; cases h
    | hang => rw [ha] at h; cases h

theorem mapErr_eq_ok {ε ε' α : Type} {x : Res ε α} {g : ε → ε'} {a : α} (h : x.mapErr g = .ok a) : x = .ok a := by
  cases x <;> simp_all [Res.mapErr]

theorem keepOk_mem {ε α : Type} {l : List (Res ε α)} {a : α} (h : a ∈ keepOk l) : .ok a ∈ l := by
  induction l with
  | nil => simp [keepOk] at h
  | cons x t ih =>
    cases x with
    | ok b =>
      rw [keepOk] at h
      rcases List.mem_cons.mp h with rfl | h
      · simp
      · exact List.mem_cons_of_mem _ (ih h)
    | err e => exact List.mem_cons_of_mem _ (ih h)
    | panic => exact List.mem_cons_of_mem _ (ih h)
    | hang => exact List.mem_cons_of_mem _ (ih h)

/-- C72: the name and every path component of metadata that is accepted are well-formed text. -/
theorem C72_names_are_text (bytes : Bytes) (i : Info) (h : Info.fromBytes bytes = .ok i) :
    Text i.name ∧ ∀ fs, i.files = some fs → ∀ f ∈ fs, ∀ s ∈ f.path, Text s := by
  unfold Info.fromBytes at h
  obtain ⟨⟨m, k⟩, -, h⟩ := bind_eq_ok h
  unfold Info.fromMetainfo at h
  obtain ⟨pieces, -, h⟩ := bind_eq_ok h
  obtain ⟨pl, -, h⟩ := bind_eq_ok h
  obtain ⟨name, hn, h⟩ := bind_eq_ok h
  obtain ⟨len, -, h⟩ := bind_eq_ok h
  obtain ⟨els, -, h⟩ := bind_eq_ok h
  cases h
  constructor
  · have := mapErr_eq_ok hn
    unfold Metainfo.getStringFromDict at this
    obtain ⟨d, -, this⟩ := bind_eq_ok this
    cases hg : mapGet d b!"name" with
    | none => rw [hg] at this; cases this
    | some v => rw [hg] at this; exact getStringContent_text this
  · intro fs hfs f hf
    simp only [Option.map_eq_some_iff] at hfs
    obtain ⟨l, -, rfl⟩ := hfs
    have := keepOk_mem hf
    obtain ⟨x, -, hx⟩ := List.mem_map.mp this
    unfold File.fromMetainfo at hx
    obtain ⟨len, -, hx⟩ := bind_eq_ok hx
    obtain ⟨l2, -, hx⟩ := bind_eq_ok hx
    obtain ⟨p, hp, hx⟩ := bind_eq_ok hx
    cases hx
    exact pathComponents_text _ _ hp

/-- Non-vacuity: metadata with the name "é". -/
example : Info.fromBytes (b!"d6:lengthi1e4:name2:" ++ [0xC3, 0xA9] ++ b!"12:piece lengthi1e6:pieces1:xe") =
      .ok ⟨none, some 1, [0xC3, 0xA9], 1, b!"x"⟩ ∧ IsText [0xE9] [0xC3, 0xA9] :=
  ⟨by decide +kernel, by simp [Scalar], by decide⟩

theorem ascii_of_lengths (cs : List Nat) (h : (cs.flatMap utf8).length = cs.length) : Ascii (cs.flatMap utf8) := by
  have hpos : ∀ n, 1 ≤ (utf8 n).length ∧ ((utf8 n).length = 1 → n < 0x80) := by
    intro n
    unfold utf8
    split
    · exact ⟨by simp, fun _ => by assumption⟩
    · split
      · simp
      · split <;> simp
  have hle : ∀ cs : List Nat, cs.length ≤ (cs.flatMap utf8).length := by
    intro cs
    induction cs with
    | nil => simp
    | cons n t ih =>
      have := (hpos n).1
      simp only [List.flatMap_cons, List.length_append, List.length_cons]
      omega
  induction cs with
  | nil => simp [Ascii]
  | cons n t ih =>
    simp only [List.flatMap_cons, List.length_append, List.length_cons] at h ⊢
    have h1 := (hpos n)
    have h2 := hle t
    have hn := h1.2 (by omega)
    intro b hb
    rcases List.mem_append.mp hb with hb | hb
    · unfold utf8 at hb
      rw [if_pos hn, List.mem_singleton] at hb
      subst hb
      rw [lt80_iff, toNat_ofNat_lt (by omega)]
      exact hn
    · exact ih (by omega) b hb

/-- C72: text is encoded with the number of its characters as length. This is a bencode document exactly
for ASCII text. -/
theorem C72_text_encoding (cs : List Nat) (s : Bytes) (h : IsText cs s) :
    encStr s = decimal cs.length ++ 58 :: s ∧ ((∃ v, IsBencode v (encStr s)) ↔ Ascii s) := by
  have hc := charCount_text h
  have he : encStr s = decimal cs.length ++ 58 :: s := by rw [encStr, hc]
  refine ⟨he, ?_, fun ha => ⟨.str s, .str (isStr_encStr s ha)⟩⟩
  rintro ⟨v, hv⟩
  have hle : cs.length ≤ s.length := by
    rw [← hc]
    exact List.length_filter_le _ _
  have h2 : IsBencode (.str (s.take cs.length)) (decimal cs.length ++ 58 :: s.take cs.length) :=
    .str ⟨decimal cs.length, by rw [List.length_take, Nat.min_eq_left hle]; exact isDecimal_decimal _, rfl⟩
  obtain ⟨-, -, hr⟩ := isBencode_prefix hv h2 (r := []) (r' := s.drop cs.length) (by
    rw [he, List.append_nil, List.append_assoc, List.cons_append, List.take_append_drop])
  have hlen : s.length ≤ cs.length := by
    have := congrArg List.length hr
    simp only [List.length_nil, List.length_drop] at this
    omega
  obtain ⟨-, rfl⟩ := h
  exact ascii_of_lengths cs (by omega)

example : IsText [0x48, 0xE9] [0x48, 0xC3, 0xA9] ∧ encStr [0x48, 0xC3, 0xA9] = b!"2:" ++ [0x48, 0xC3, 0xA9] :=
  ⟨⟨by simp [Scalar], by decide⟩, rfl⟩

end RustBit
