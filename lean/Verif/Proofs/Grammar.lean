/- The decoder against the bencode grammar. -/
import Verif.Proofs.Decode
import Verif.Spec.BencodeRel

namespace RustBit
open Spec Decoder

theorem isDigit_of_isDecimal {n : Nat} {ds : Bytes} (h : IsDecimal n ds) :
    ∀ d ∈ ds, isDigit d = true := fun d hd => (isDigit_iff d).mpr (h.digits d hd)

theorem isBencode_head {v : BVal} {bs : Bytes} (h : IsBencode v bs) :
    ∃ b t, bs = b :: t ∧ b ≠ 101 ∧
      (b = 105 ∨ b = 108 ∨ b = 100 ∨ isDigit b = true) := by
  cases h with
  | int h => exact ⟨105, _, rfl, by decide, by simp⟩
  | list h => exact ⟨108, _, rfl, by decide, by simp⟩
  | dict h => exact ⟨100, _, rfl, by decide, by simp⟩
  | str h =>
    obtain ⟨ds, hd, rfl⟩ := h
    cases ds with
    | nil => exact absurd rfl hd.nonempty
    | cons d t =>
      have := hd.digits d (by simp)
      refine ⟨d, _, rfl, ?_, Or.inr (Or.inr (Or.inr ((isDigit_iff d).mpr this)))⟩
      rintro rfl
      simp at this

theorem isStr_head {s bs : Bytes} (h : IsStr s bs) :
    ∃ b t, bs = b :: t ∧ isDigit b = true ∧ b ≠ 101 := by
  obtain ⟨ds, hd, rfl⟩ := h
  cases ds with
  | nil => exact absurd rfl hd.nonempty
  | cons d t =>
    have := hd.digits d (by simp)
    refine ⟨d, _, rfl, (isDigit_iff d).mpr this, ?_⟩
    rintro rfl
    simp at this

theorem parseString_of_isStr {s bs c rest : Bytes} {p : Nat} (h : IsStr s bs)
    (hl : s.length < 2 ^ 64) (e : c.drop p = bs ++ rest) :
    parseString c p = .ok (s, p + bs.length) := by
  obtain ⟨ds, hd, rfl⟩ := h
  refine parseString_ok.mpr ⟨ds, 58, rest, by simpa using e, hd.nonempty, isDigit_of_isDecimal hd,
    by decide, hd.denotes, hl, ?_⟩
  simp; omega

theorem getElem?_of_drop {c : Bytes} {p : Nat} {b : UInt8} {t : Bytes} (h : c.drop p = b :: t) :
    c[p]? = some b := by
  have := congrArg List.head? h
  simpa [List.head?_drop] using this

theorem drop_add {c : Bytes} {p : Nat} {bs rest : Bytes} (h : c.drop p = bs ++ rest) :
    c.drop (p + bs.length) = rest := by
  rw [← List.drop_drop, h, List.drop_left]

theorem drop_succ {c : Bytes} {p : Nat} {b : UInt8} {rest : Bytes} (h : c.drop p = b :: rest) :
    c.drop (p + 1) = rest := by
  rw [← List.drop_drop, h]; rfl

mutual
theorem decode_doc {v : BVal} {bs : Bytes} (h : IsBencode v bs) (hr : Readable v)
    (c : Bytes) (p : Nat) (rest : Bytes) (e : c.drop p = bs ++ rest) :
    ∃ f, decodeF f c p = .ok (meaning v, p + bs.length) := by
  match h with
  | .int (i := i) (bs := bs) hi =>
    refine ⟨1, ?_⟩
    rw [decodeF, getElem?_of_drop (b := 105) (t := bs ++ [101] ++ rest) (by simpa using e)]
    simp only [if_true]
    have e1 : c.drop (p + 1) = bs ++ 101 :: rest := drop_succ (by simpa using e)
    cases hi with
    | nonneg hd =>
      rename_i n
      refine parseInteger_ok.mpr ⟨n, p + 1 + bs.length, getConsecutiveDigits_ok.mpr
        ⟨bs, 101, rest, e1, hd.nonempty, isDigit_of_isDecimal hd, by decide, hd.denotes, ?_, rfl⟩, ?_, ?_⟩
      · have := hr.2; omega
      · simp [meaning]
      · simp; omega
    | neg hn hd =>
      have := hr.1
      omega
  | .str (s := s) hs =>
    refine ⟨1, ?_⟩
    have hs' := hs
    obtain ⟨ds, hd, rfl⟩ := hs
    have hne : ds.head? ≠ some 48 := by
      intro h48
      have h1 := hd.noLeadingZero h48
      have h2 := hd.denotes
      rw [h1] at h2
      simp [value] at h2
      exact hr.1 (List.length_eq_zero_iff.mp h2.symm)
    cases ds with
    | nil => exact absurd rfl hd.nonempty
    | cons d t =>
      have hdg := hd.digits d (by simp)
      have e0 : c.drop p = d :: (t ++ 58 :: s ++ rest) := by simpa using e
      rw [decodeF, getElem?_of_drop e0]
      have n1 : d ≠ 105 := by rintro rfl; simp at hdg
      have n2 : d ≠ 108 := by rintro rfl; simp at hdg
      have n3 : d ≠ 100 := by rintro rfl; simp at hdg
      have n4 : (49 ≤ d && d ≤ 57) = true := by
        have : d.toNat ≠ 48 := by
          intro h
          apply hne
          simp only [List.head?_cons, Option.some.injEq]
          exact UInt8.toNat_inj.mp h
        simp only [Bool.and_eq_true, decide_eq_true_eq, UInt8.le_iff_toNat_le]
        simp only [UInt8.reduceToNat]
        omega
      simp only [n1, n2, n3, if_false]
      rw [if_pos n4, parseString_of_isStr hs' hr.2 e]
      rfl
  | .list (l := l) (bs := bs) hl =>
    have e1 : c.drop (p + 1) = bs ++ 101 :: rest := drop_succ (by simpa using e)
    obtain ⟨f, hf⟩ := decode_elems hl hr c (p + 1) [] rest e1
    refine ⟨f + 1, ?_⟩
    rw [decodeF, getElem?_of_drop (b := 108) (t := bs ++ [101] ++ rest) (by simpa using e)]
    simp only [show (108 : UInt8) ≠ 105 by decide, if_false, if_true]
    rw [hf]
    simp [meaning]
    omega
  | .dict (d := d) (bs := bs) hd =>
    have e1 : c.drop (p + 1) = bs ++ 101 :: rest := drop_succ (by simpa using e)
    obtain ⟨f, hf⟩ := decode_entries hd hr c (p + 1) [] rest e1
    refine ⟨f + 1, ?_⟩
    rw [decodeF, getElem?_of_drop (b := 100) (t := bs ++ [101] ++ rest) (by simpa using e)]
    simp only [show (100 : UInt8) ≠ 105 by decide, show (100 : UInt8) ≠ 108 by decide, if_false, if_true]
    rw [hf]
    simp [meaning]
    omega

theorem decode_elems {l : List BVal} {bs : Bytes} (h : IsElems l bs) (hr : ReadableElems l)
    (c : Bytes) (p : Nat) (acc : List Metainfo) (rest : Bytes) (e : c.drop p = bs ++ 101 :: rest) :
    ∃ f, listLoop f c p acc = .ok (.list (acc ++ meaningElems l), p + bs.length + 1) := by
  match h with
  | .nil =>
    refine ⟨1, ?_⟩
    rw [listLoop, getElem?_of_drop (b := 101) (t := rest) (by simpa using e)]
    simp [meaningElems]
  | .cons (v := v) (l := l) (bs := bs) (bs' := bs') hv hl =>
    have e0 : c.drop p = bs ++ (bs' ++ 101 :: rest) := by simpa using e
    obtain ⟨f1, h1⟩ := decode_doc hv hr.1 c p _ e0
    obtain ⟨f2, h2⟩ := decode_elems hl hr.2 c (p + bs.length) (acc ++ [meaning v]) rest (drop_add e0)
    obtain ⟨b, t, hb, hne, -⟩ := isBencode_head hv
    refine ⟨max f1 f2 + 1, ?_⟩
    rw [listLoop, getElem?_of_drop (b := b) (t := t ++ (bs' ++ 101 :: rest)) (by simp [e0, hb])]
    simp only [hne, if_false]
    rw [decodeF_mono (Nat.le_max_left f1 f2) (by rw [h1]; simp), h1]
    simp only [Res.bind_ok]
    rw [listLoop_mono (Nat.le_max_right f1 f2) (by rw [h2]; simp), h2]
    simp [meaningElems]
    omega

theorem decode_entries {d : List (Bytes × BVal)} {bs : Bytes} (h : IsEntries d bs)
    (hr : ReadableEntries d) (c : Bytes) (p : Nat) (acc : List (Bytes × Metainfo)) (rest : Bytes)
    (e : c.drop p = bs ++ 101 :: rest) :
    ∃ f, dictLoop f c p acc = .ok (.dictionary (meaningEntries acc d), p + bs.length + 1) := by
  match h with
  | .nil =>
    refine ⟨1, ?_⟩
    rw [dictLoop, getElem?_of_drop (b := 101) (t := rest) (by simpa using e)]
    simp [meaningEntries]
  | .cons (k := k) (v := v) (d := d) (ks := ks) (bs := bs) (bs' := bs') hk hv hd =>
    obtain ⟨hu, hkl, hrv, hrd⟩ := hr
    have e0 : c.drop p = ks ++ (bs ++ (bs' ++ 101 :: rest)) := by simpa using e
    have e1 := drop_add e0
    have hps := parseString_of_isStr hk hkl e0
    obtain ⟨f1, h1⟩ := decode_doc hv hrv c _ _ e1
    obtain ⟨f2, h2⟩ := decode_entries hd hrd c _ (mapInsert acc k (meaning v)) rest (drop_add e1)
    obtain ⟨b, t, hb, -, hne⟩ := isStr_head hk
    refine ⟨max f1 f2 + 1, ?_⟩
    rw [dictLoop, getElem?_of_drop (b := b) (t := t ++ (bs ++ (bs' ++ 101 :: rest))) (by simp [e0, hb])]
    simp only [hne, if_false]
    rw [hps]
    simp only [Res.bind_ok, hu, if_true]
    rw [decodeF_mono (Nat.le_max_left f1 f2) (by rw [h1]; simp), h1]
    simp only [Res.bind_ok]
    rw [dictLoop_mono (Nat.le_max_right f1 f2) (by rw [h2]; simp), h2]
    simp [meaningEntries]
    omega
end

theorem decodeAt_doc {v : BVal} {bs : Bytes} (h : IsBencode v bs) (hr : Readable v)
    {c : Bytes} {p : Nat} {rest : Bytes} (e : c.drop p = bs ++ rest) :
    decodeAt c p = .ok (meaning v, p + bs.length) := by
  obtain ⟨f, hf⟩ := decode_doc h hr c p rest e
  rw [decodeAt_of_fuel (f := f) (by rw [hf]; simp), hf]

/-! ### `meaning` and `toMeta` -/

theorem toMetaEntries_keys (d : List (Bytes × BVal)) :
    (toMetaEntries d).map Prod.fst = d.map Prod.fst := by
  induction d with
  | nil => rfl
  | cons a t ih => obtain ⟨k, v⟩ := a; simp [toMetaEntries, ih]

mutual
theorem meaning_eq_toMeta (v : BVal) (h : DistinctKeys v) : meaning v = toMeta v := by
  match v with
  | .int i => rfl
  | .str s => rfl
  | .list l => rw [meaning, toMeta, meaningElems_eq l h]
  | .dict d =>
    rw [meaning, toMeta, meaningEntries_eq d h.2 [] (by simpa using h.1)]
    rfl
theorem meaningElems_eq (l : List BVal) (h : DistinctKeysElems l) :
    meaningElems l = toMetaElems l := by
  match l with
  | [] => rfl
  | v :: t => rw [meaningElems, toMetaElems, meaning_eq_toMeta v h.1, meaningElems_eq t h.2]
theorem meaningEntries_eq (d : List (Bytes × BVal)) (h : DistinctKeysEntries d)
    (acc : List (Bytes × Metainfo)) (hn : (acc.map Prod.fst ++ d.map Prod.fst).Nodup) :
    meaningEntries acc d = acc ++ toMetaEntries d := by
  match d with
  | [] => simp [meaningEntries, toMetaEntries]
  | (k, v) :: t =>
    have hk : k ∉ acc.map Prod.fst := by
      intro hk
      have := (List.nodup_append.mp hn).2.2 k hk k (by simp)
      exact this rfl
    rw [meaningEntries, mapInsert_of_not_mem _ _ _ hk, meaning_eq_toMeta v h.1,
      meaningEntries_eq t h.2 _ (by simpa using hn)]
    simp [toMetaEntries]
end

theorem lastFor_cons (k : Bytes) (e : Bytes × BVal) (t : List (Bytes × BVal)) :
    lastFor k (e :: t) = (lastFor k t).or (if e.1 = k then some e.2 else none) := by
  simp only [lastFor, List.reverse_cons, List.find?_append]
  cases h : t.reverse.find? (fun e => e.1 == k) with
  | some a => simp
  | none =>
    by_cases he : e.1 = k <;> simp [he]

theorem mapGet_meaningEntries (d : List (Bytes × BVal)) (k : Bytes) :
    ∀ acc, mapGet (meaningEntries acc d) k = ((lastFor k d).map meaning).or (mapGet acc k) := by
  induction d with
  | nil => intro acc; simp [meaningEntries, lastFor]
  | cons a t ih =>
    intro acc
    obtain ⟨k', v⟩ := a
    rw [meaningEntries, ih, mapGet_mapInsert, lastFor_cons]
    cases hl : lastFor k t with
    | some x => simp
    | none =>
      by_cases he : k' = k
      · simp [he]
      · simp [he, Ne.symm he]

theorem meaningEntries_nodup (d : List (Bytes × BVal)) :
    ∀ acc, (acc.map Prod.fst).Nodup → ((meaningEntries acc d).map Prod.fst).Nodup := by
  induction d with
  | nil => intro acc h; simpa [meaningEntries] using h
  | cons a t ih =>
    intro acc h
    obtain ⟨k', v⟩ := a
    rw [meaningEntries]
    exact ih _ (mapInsert_nodup _ _ _ h)

/-! ### Everything the decoder accepts is in the lenient grammar -/

theorem lenientStr_of_parseString {c : Bytes} {p q : Nat} {s : Bytes}
    (h : parseString c p = .ok (s, q)) :
    ∃ bs rest, c.drop p = bs ++ rest ∧ q = p + bs.length ∧ LenientStr s bs := by
  obtain ⟨ds, x, t, e, hne, hd, hx, hv, hn, rfl⟩ := parseString_ok.mp h
  exact ⟨ds ++ x :: s, t, by simpa using e, by simp; omega, .mk hne hd hx hv hn⟩

theorem lenientStr_head {s bs : Bytes} (h : LenientStr s bs) : ∃ b t, bs = b :: t ∧ isDigit b = true := by
  cases h with
  | mk hne hd hx hv hl =>
    rename_i ds x
    cases ds with
    | nil => exact absurd rfl hne
    | cons d t => exact ⟨d, _, rfl, hd d (by simp)⟩

theorem lenientEntries_head {acc m : List (Bytes × Metainfo)} {bs : Bytes} (h : LenientEntries acc m bs) :
    bs = [] ∨ ∃ b t, bs = b :: t ∧ isDigit b = true := by
  cases h with
  | nil => exact .inl rfl
  | cons hk _ _ _ =>
    obtain ⟨b, t, rfl, hb⟩ := lenientStr_head hk
    exact .inr ⟨b, _, rfl, hb⟩
  | noValue hk _ _ _ =>
    obtain ⟨b, t, rfl, hb⟩ := lenientStr_head hk
    exact .inr ⟨b, _, rfl, hb⟩

theorem digit_cases (b : UInt8) (h : isDigit b = true) : b = 48 ∨ (49 ≤ b && b ≤ 57) = true := by
  rw [isDigit_iff] at h
  by_cases hb : b.toNat = 48
  · left
    exact UInt8.toNat_inj.mp hb
  · right
    simp only [Bool.and_eq_true, decide_eq_true_eq, UInt8.le_iff_toNat_le]
    simp only [UInt8.reduceToNat]
    omega

theorem lenient_of_decode (f : Nat) :
    (∀ c p v q, decodeF f c p = .ok (v, q) → p < q →
      ∃ bs rest, c.drop p = bs ++ rest ∧ q = p + bs.length ∧ Lenient v bs) ∧
    (∀ c p acc v q, listLoop f c p acc = .ok (v, q) →
      ∃ l bs rest, v = .list (acc ++ l) ∧ c.drop p = bs ++ 101 :: rest ∧ q = p + bs.length + 1 ∧
        LenientElems l bs) ∧
    (∀ c p acc v q, dictLoop f c p acc = .ok (v, q) →
      ∃ m bs rest, v = .dictionary m ∧ c.drop p = bs ++ 101 :: rest ∧ q = p + bs.length + 1 ∧
        LenientEntries acc m bs) := by
  induction f with
  | zero => refine ⟨?_, ?_, ?_⟩ <;> intros <;> simp_all [decodeF, listLoop, dictLoop]
  | succ f ih =>
    obtain ⟨ih1, ih2, ih3⟩ := ih
    refine ⟨?_, ?_, ?_⟩
    · intro c p v q h hpq
      rw [decodeF] at h
      cases hb : c[p]? with
      | none =>
        simp only [hb, Res.ok.injEq, Prod.mk.injEq] at h
        omega
      | some b =>
        have hdr := drop_eq_of_getElem? hb
        simp only [hb] at h
        split at h
        · rename_i hbe
          subst hbe
          obtain ⟨n, q', h1, rfl, rfl⟩ := parseInteger_ok.mp h
          obtain ⟨ds, x, t, e, hne, hd, hx, rfl, hn, rfl⟩ := getConsecutiveDigits_ok.mp h1
          refine ⟨105 :: (ds ++ [x]), t, by rw [hdr, e]; simp, by simp; omega, .int hne hd hx hn⟩
        · split at h
          · rename_i hbe; subst hbe
            obtain ⟨l, bs, rest, rfl, e, rfl, hl⟩ := ih2 _ _ _ _ _ h
            exact ⟨108 :: (bs ++ [101]), rest, by rw [hdr, e]; simp, by simp; omega, .list hl⟩
          · split at h
            · rename_i hbe; subst hbe
              obtain ⟨m, bs, rest, rfl, e, rfl, hl⟩ := ih3 _ _ _ _ _ h
              exact ⟨100 :: (bs ++ [101]), rest, by rw [hdr, e]; simp, by simp; omega, .dict hl⟩
            · split at h
              · rename_i hrange
                cases hs : parseString c p with
                | ok a =>
                  obtain ⟨s, p1⟩ := a
                  rw [hs] at h
                  simp only [Res.bind_ok, Res.ok.injEq, Prod.mk.injEq] at h
                  obtain ⟨rfl, rfl⟩ := h
                  obtain ⟨bs, rest, e, rfl, hl⟩ := lenientStr_of_parseString hs
                  refine ⟨bs, rest, e, rfl, .str hl ?_⟩
                  intro h48
                  cases bs with
                  | nil => simp at h48
                  | cons x t =>
                    simp at h48
                    rw [hdr] at e
                    simp at e
                    rw [e.1, h48] at hrange
                    exact absurd hrange (by decide)
                | err e => rw [hs] at h; cases h
                | panic => rw [hs] at h; cases h
                | hang => rw [hs] at h; cases h
              · simp only [Res.ok.injEq, Prod.mk.injEq] at h
                omega
    · intro c p acc v q h
      rw [listLoop] at h
      cases hb : c[p]? with
      | none => simp [hb] at h
      | some b =>
        have hdr := drop_eq_of_getElem? hb
        simp only [hb] at h
        split at h
        · rename_i hbe; subst hbe
          simp only [Res.ok.injEq, Prod.mk.injEq] at h
          obtain ⟨rfl, rfl⟩ := h
          exact ⟨[], [], _, by simp, by simpa using hdr, by simp, .nil⟩
        · rename_i hbe
          cases hd : decodeF f c p with
          | ok a =>
            obtain ⟨w, p1⟩ := a
            rw [hd] at h
            simp only [Res.bind_ok] at h
            obtain ⟨h1, h2, h3⟩ := (progress f).1 _ _ _ _ hd
            by_cases e1 : p1 = p
            · subst e1
              rw [listLoop_stuck (h3 rfl).2 ⟨b, hb, hbe⟩] at h
              cases h
            · obtain ⟨bs, r1, ed, rfl, hl⟩ := ih1 _ _ _ _ hd (by omega)
              obtain ⟨l, bs', rest, rfl, e, rfl, hl'⟩ := ih2 _ _ _ _ _ h
              refine ⟨w :: l, bs ++ bs', rest, by simp, ?_, by simp; omega, .cons hl hl'⟩
              rw [drop_add ed] at e
              rw [ed, e]; simp
          | err e => rw [hd] at h; cases h
          | panic => rw [hd] at h; cases h
          | hang => rw [hd] at h; cases h
    · intro c p acc v q h
      rw [dictLoop] at h
      cases hb : c[p]? with
      | none => simp [hb] at h
      | some b =>
        have hdr := drop_eq_of_getElem? hb
        simp only [hb] at h
        split at h
        · rename_i hbe; subst hbe
          simp only [Res.ok.injEq, Prod.mk.injEq] at h
          obtain ⟨rfl, rfl⟩ := h
          exact ⟨acc, [], _, by simp, by simpa using hdr, by simp, .nil⟩
        · rename_i hbe
          cases hs : parseString c p with
          | ok a =>
            obtain ⟨k, p0⟩ := a
            rw [hs] at h
            simp only [Res.bind_ok] at h
            obtain ⟨ks, r0, ek, rfl, hk⟩ := lenientStr_of_parseString hs
            split at h
            · rename_i hu
              cases hd : decodeF f c (p + ks.length) with
              | ok a =>
                obtain ⟨w, p1⟩ := a
                rw [hd] at h
                simp only [Res.bind_ok] at h
                obtain ⟨h1, h2, h3⟩ := (progress f).1 _ _ _ _ hd
                obtain ⟨m, bs', rest, rfl, e, rfl, hl'⟩ := ih3 _ _ _ _ _ h
                by_cases e1 : p1 = p + ks.length
                · obtain ⟨rfl, hnv⟩ := h3 e1
                  subst e1
                  refine ⟨m, ks ++ bs', rest, by simp, ?_, by simp; omega, .noValue hk hu ?_ hl'⟩
                  · rw [drop_add ek] at e
                    rw [ek, e]; simp
                  · rcases lenientEntries_head hl' with h0 | ⟨d, t, rfl, hdig⟩
                    · exact .inl h0
                    · rcases digit_cases d hdig with rfl | h49
                      · exact .inr rfl
                      · unfold noValueAt at hnv
                        rw [getElem?_of_drop (b := d) (by rw [e]; rfl)] at hnv
                        exact absurd h49 hnv.2.2.2
                · obtain ⟨bs, r1, ed, rfl, hl⟩ := ih1 _ _ _ _ hd (by omega)
                  refine ⟨m, ks ++ bs ++ bs', rest, by simp, ?_, by simp; omega, .cons hk hu hl hl'⟩
                  rw [drop_add ed] at e
                  rw [drop_add ek] at ed
                  rw [ek, ed, e]; simp
              | err e => rw [hd] at h; cases h
              | panic => rw [hd] at h; cases h
              | hang => rw [hd] at h; cases h
            · cases h
          | err e => rw [hs] at h; cases h
          | panic => rw [hs] at h; cases h
          | hang => rw [hs] at h; cases h

theorem intsFitEntries_mapInsert (m : List (Bytes × Metainfo)) (k : Bytes) (v : Metainfo)
    (hm : IntsFitEntries m) (hv : IntsFit v) : IntsFitEntries (mapInsert m k v) := by
  induction m with
  | nil => exact ⟨hv, trivial⟩
  | cons a t ih =>
    obtain ⟨k', v'⟩ := a
    rw [mapInsert]
    split
    · exact ⟨hv, hm.2⟩
    · exact ⟨hm.1, ih hm.2⟩

theorem keysUniqueEntries_mapInsert (m : List (Bytes × Metainfo)) (k : Bytes) (v : Metainfo)
    (hm : KeysUniqueEntries m) (hv : KeysUnique v) : KeysUniqueEntries (mapInsert m k v) := by
  induction m with
  | nil => exact ⟨hv, trivial⟩
  | cons a t ih =>
    obtain ⟨k', v'⟩ := a
    rw [mapInsert]
    split
    · exact ⟨hv, hm.2⟩
    · exact ⟨hm.1, ih hm.2⟩

mutual
theorem lenient_fit {v : Metainfo} {bs : Bytes} (h : Lenient v bs) : IntsFit v ∧ KeysUnique v := by
  match h with
  | .int _ _ _ hn => exact ⟨hn, trivial⟩
  | .str _ _ => exact ⟨trivial, trivial⟩
  | .list hl => exact lenientElems_fit hl
  | .dict hd =>
    have := lenientEntries_fit hd trivial trivial (by simp)
    exact ⟨this.1, this.2.2, this.2.1⟩
theorem lenientElems_fit {l : List Metainfo} {bs : Bytes} (h : LenientElems l bs) :
    IntsFitElems l ∧ KeysUniqueElems l := by
  match h with
  | .nil => exact ⟨trivial, trivial⟩
  | .cons hv hl =>
    have h1 := lenient_fit hv
    have h2 := lenientElems_fit hl
    exact ⟨⟨h1.1, h2.1⟩, h1.2, h2.2⟩
theorem lenientEntries_fit {acc m : List (Bytes × Metainfo)} {bs : Bytes}
    (h : LenientEntries acc m bs) (ha : IntsFitEntries acc) (hk : KeysUniqueEntries acc)
    (hn : (acc.map Prod.fst).Nodup) :
    IntsFitEntries m ∧ KeysUniqueEntries m ∧ (m.map Prod.fst).Nodup := by
  match h with
  | .nil => exact ⟨ha, hk, hn⟩
  | .cons _ _ hv hl =>
    have h1 := lenient_fit hv
    exact lenientEntries_fit hl (intsFitEntries_mapInsert _ _ _ ha h1.1)
      (keysUniqueEntries_mapInsert _ _ _ hk h1.2) (mapInsert_nodup _ _ _ hn)
  | .noValue _ _ _ hl =>
    exact lenientEntries_fit hl (intsFitEntries_mapInsert _ _ _ ha trivial)
      (keysUniqueEntries_mapInsert _ _ _ hk trivial) (mapInsert_nodup _ _ _ hn)
end

/-! ### The grammar is unambiguous and prefix-free -/

theorem digits_prefix {ds es : Bytes} {x y : UInt8} {r r' : Bytes}
    (hd : ∀ d ∈ ds, isDigit d = true) (he : ∀ d ∈ es, isDigit d = true)
    (hx : isDigit x = false) (hy : isDigit y = false) (h : ds ++ x :: r = es ++ y :: r') :
    ds = es ∧ x = y ∧ r = r' := by
  have c1 := countDigits_append ds x r hd hx
  have c2 := countDigits_append es y r' he hy
  rw [h, c2] at c1
  obtain ⟨h1, h2⟩ := List.append_inj h (by simpa using c1.symm)
  simp at h2
  exact ⟨h1, h2.1, h2.2⟩

theorem isStr_prefix {s s' bs bs' r r' : Bytes} (h : IsStr s bs) (h' : IsStr s' bs')
    (e : bs ++ r = bs' ++ r') : s = s' ∧ bs = bs' ∧ r = r' := by
  obtain ⟨ds, hd, rfl⟩ := h
  obtain ⟨es, he, rfl⟩ := h'
  obtain ⟨rfl, -, e2⟩ := digits_prefix (x := 58) (y := 58) (r := s ++ r) (r' := s' ++ r')
    (isDigit_of_isDecimal hd) (isDigit_of_isDecimal he) (by decide) (by decide) (by simpa using e)
  have hl : s.length = s'.length := by rw [← hd.denotes, ← he.denotes]
  obtain ⟨rfl, rfl⟩ := List.append_inj e2 hl
  exact ⟨rfl, rfl, rfl⟩

theorem isInt_prefix {i j : Int} {bs bs' r r' : Bytes} (h : IsInt i bs) (h' : IsInt j bs')
    (e : bs ++ 101 :: r = bs' ++ 101 :: r') : i = j ∧ bs = bs' ∧ r = r' := by
  cases h with
  | nonneg hd =>
    cases h' with
    | nonneg he =>
      obtain ⟨rfl, -, rfl⟩ := digits_prefix (isDigit_of_isDecimal hd) (isDigit_of_isDecimal he)
        (by decide) (by decide) e
      exact ⟨by rw [← hd.denotes, ← he.denotes], rfl, rfl⟩
    | neg hn he =>
      cases bs with
      | nil => exact absurd rfl hd.nonempty
      | cons d t =>
        simp at e
        have := hd.digits d (by simp)
        rw [e.1] at this
        simp at this
  | neg hn hd =>
    cases h' with
    | nonneg he =>
      cases bs' with
      | nil => exact absurd rfl he.nonempty
      | cons d t =>
        simp at e
        have := he.digits d (by simp)
        rw [← e.1] at this
        simp at this
    | neg hn he =>
      simp only [List.cons_append, List.cons.injEq, true_and] at e
      obtain ⟨rfl, -, rfl⟩ := digits_prefix (isDigit_of_isDecimal hd) (isDigit_of_isDecimal he)
        (by decide) (by decide) e
      exact ⟨by rw [← hd.denotes, ← he.denotes], rfl, rfl⟩

theorem isStr_append_head {s bs r : Bytes} {b : UInt8} {t : Bytes} (h : IsStr s bs)
    (e : bs ++ r = b :: t) : isDigit b = true := by
  obtain ⟨d, u, rfl, hd, -⟩ := isStr_head h
  simp at e
  rw [← e.1]; exact hd

mutual
theorem isBencode_prefix {v w : BVal} {bs bs' r r' : Bytes} (h : IsBencode v bs)
    (h' : IsBencode w bs') (e : bs ++ r = bs' ++ r') : v = w ∧ bs = bs' ∧ r = r' := by
  match h with
  | .int hi =>
    cases h' with
    | int hj =>
      simp only [List.cons_append, List.append_assoc, List.cons.injEq, true_and, List.nil_append] at e
      obtain ⟨rfl, rfl, rfl⟩ := isInt_prefix hi hj e
      exact ⟨rfl, rfl, rfl⟩
    | str hs => exact absurd (isStr_append_head hs e.symm) (by decide)
    | list hl => simp at e
    | dict hd => simp at e
  | .str hs =>
    cases h' with
    | str ht =>
      obtain ⟨rfl, rfl, rfl⟩ := isStr_prefix hs ht e
      exact ⟨rfl, rfl, rfl⟩
    | int hj => exact absurd (isStr_append_head hs e) (by decide)
    | list hj => exact absurd (isStr_append_head hs e) (by decide)
    | dict hj => exact absurd (isStr_append_head hs e) (by decide)
  | .list hl =>
    cases h' with
    | int hj => simp at e
    | str hs => exact absurd (isStr_append_head hs e.symm) (by decide)
    | dict hd => simp at e
    | list hm =>
      simp only [List.cons_append, List.append_assoc, List.cons.injEq, true_and, List.nil_append] at e
      obtain ⟨rfl, rfl, rfl⟩ := isElems_prefix hl hm e
      exact ⟨rfl, rfl, rfl⟩
  | .dict hd =>
    cases h' with
    | int hj => simp at e
    | str hs => exact absurd (isStr_append_head hs e.symm) (by decide)
    | list hd => simp at e
    | dict hm =>
      simp only [List.cons_append, List.append_assoc, List.cons.injEq, true_and, List.nil_append] at e
      obtain ⟨rfl, rfl, rfl⟩ := isEntries_prefix hd hm e
      exact ⟨rfl, rfl, rfl⟩

theorem isElems_prefix {l m : List BVal} {bs bs' r r' : Bytes} (h : IsElems l bs)
    (h' : IsElems m bs') (e : bs ++ 101 :: r = bs' ++ 101 :: r') : l = m ∧ bs = bs' ∧ r = r' := by
  match h with
  | .nil =>
    cases h' with
    | nil => exact ⟨rfl, rfl, by simpa using e⟩
    | cons hv hl =>
      obtain ⟨b, t, rfl, hne, -⟩ := isBencode_head hv
      simp at e
      exact absurd e.1.symm hne
  | .cons hv hl =>
    cases h' with
    | nil =>
      obtain ⟨b, t, rfl, hne, -⟩ := isBencode_head hv
      simp at e
      exact absurd e.1 hne
    | cons hw hm =>
      simp only [List.append_assoc] at e
      obtain ⟨rfl, rfl, e2⟩ := isBencode_prefix hv hw e
      obtain ⟨rfl, rfl, rfl⟩ := isElems_prefix hl hm e2
      exact ⟨rfl, rfl, rfl⟩

theorem isEntries_prefix {l m : List (Bytes × BVal)} {bs bs' r r' : Bytes} (h : IsEntries l bs)
    (h' : IsEntries m bs') (e : bs ++ 101 :: r = bs' ++ 101 :: r') : l = m ∧ bs = bs' ∧ r = r' := by
  match h with
  | .nil =>
    cases h' with
    | nil => exact ⟨rfl, rfl, by simpa using e⟩
    | cons hk hv hl =>
      obtain ⟨b, t, rfl, -, hne⟩ := isStr_head hk
      simp at e
      exact absurd e.1.symm hne
  | .cons hk hv hl =>
    cases h' with
    | nil =>
      obtain ⟨b, t, rfl, -, hne⟩ := isStr_head hk
      simp at e
      exact absurd e.1 hne
    | cons hk' hw hm =>
      simp only [List.append_assoc] at e
      obtain ⟨rfl, rfl, e1⟩ := isStr_prefix hk hk' e
      obtain ⟨rfl, rfl, e2⟩ := isBencode_prefix hv hw e1
      obtain ⟨rfl, rfl, rfl⟩ := isEntries_prefix hl hm e2
      exact ⟨rfl, rfl, rfl⟩
end

end RustBit
