import Verif.Proofs.Exact

/-!
Exactly the inputs on which the decoder panics: those that end too early.
-/

namespace RustBit
open Spec Decoder

theorem countDigits_none {c : Bytes} : countDigits c = none ↔ ∀ d ∈ c, isDigit d = true := by
  induction c with
  | nil => simp [countDigits]
  | cons b t ih =>
    rw [countDigits]
    split
    · rename_i hb
      simp [ih, hb]
    · rename_i hb
      simp [hb]

theorem getConsecutiveDigits_panic {c : Bytes} {p : Nat} :
    getConsecutiveDigits c p = .panic ↔ ∀ d ∈ c.drop p, isDigit d = true := by
  rw [← countDigits_none]
  unfold getConsecutiveDigits
  cases hc : countDigits (c.drop p) with
  | none => simp
  | some k =>
    obtain ⟨x, t, e, hd, hx, hl⟩ := countDigits_some hc
    have hlen : p + k ≤ c.length := by simp at hl; omega
    simp only [slice_of_le (Nat.le_add_right p k) hlen, Res.bind_ok, reduceCtorEq, iff_false]
    split
    · split <;> simp
    · simp

theorem parseInteger_panic {c : Bytes} {p : Nat} :
    parseInteger c p = .panic ↔ ∀ d ∈ c.drop (p + 1), isDigit d = true := by
  rw [← getConsecutiveDigits_panic]
  unfold parseInteger
  cases h : getConsecutiveDigits c (p + 1) <;> simp

theorem parseString_panic {c : Bytes} {p : Nat} : parseString c p = .panic ↔ CutStr (c.drop p) := by
  unfold parseString
  cases h : getConsecutiveDigits c p with
  | panic =>
    simp only [Res.bind_panic, true_iff]
    exact .number (getConsecutiveDigits_panic.mp h)
  | hang => exact absurd h (getConsecutiveDigits_ne_hang c p)
  | err e =>
    simp only [Res.bind_err, reduceCtorEq, false_iff]
    intro hc
    generalize hd : c.drop p = d at hc
    cases hc with
    | number hn =>
      rw [← hd, ← getConsecutiveDigits_panic, h] at hn
      cases hn
    | bytes hne hdig hx hv hr =>
      have := getConsecutiveDigits_ok.mpr ⟨_, _, _, hd, hne, hdig, hx, rfl, hv, rfl⟩
      rw [h] at this
      cases this
  | ok a =>
    obtain ⟨n, q⟩ := a
    obtain ⟨ds, x, t, e, hne, hdig, hx, hv, hn, rfl⟩ := getConsecutiveDigits_ok.mp h
    have hlen := congrArg List.length e
    simp only [List.length_drop, List.length_append, List.length_cons] at hlen
    simp only [Res.bind_ok]
    have hs : (slice c (p + ds.length + 1) (p + ds.length + 1 + n) : Res DecoderError Bytes) = .panic ↔ t.length < n := by
      unfold slice
      split
      · simp only [reduceCtorEq, false_iff]; omega
      · simp only [true_iff]; omega
    constructor
    · intro hp
      have h1 : t.length < n := by
        rw [← hs]
        cases hsl : (slice c (p + ds.length + 1) (p + ds.length + 1 + n) : Res DecoderError Bytes) with
        | panic => rfl
        | ok a => rw [hsl] at hp; cases hp
        | err a => rw [hsl] at hp; cases hp
        | hang => rw [hsl] at hp; cases hp
      rw [e]
      exact .bytes hne hdig hx (by omega) (by omega)
    · intro hc
      have h1 : t.length < n := by
        generalize hd : c.drop p = d at hc
        cases hc with
        | number hall =>
          rw [← hd, ← getConsecutiveDigits_panic, h] at hall
          cases hall
        | bytes hne' hd' hx' hv' hr' =>
          rw [e] at hd
          obtain ⟨rfl, rfl, rfl⟩ := digits_prefix hdig hd' hx hx' hd
          omega
      rw [hs.mpr h1]
      rfl

theorem cutStr_head {c : Bytes} {p : Nat} : CutStr (c.drop p) → c.drop p ≠ [] → ∃ b, c[p]? = some b ∧ isDigit b = true := by
  intro h hne
  generalize hd : c.drop p = d at h hne
  cases h with
  | number hall =>
    cases d with
    | nil => exact absurd rfl hne
    | cons b t => exact ⟨b, getElem?_of_drop hd, hall b (by simp)⟩
  | bytes hne' hall hx hv hr =>
    rename_i ds x rest
    cases ds with
    | nil => exact absurd rfl hne'
    | cons b t => exact ⟨b, getElem?_of_drop hd, hall b (by simp)⟩

theorem cut_head {d : Bytes} (h : Cut d) : ∃ b t, d = b :: t ∧ b ≠ 101 := by
  cases h with
  | int _ => exact ⟨105, _, rfl, by decide⟩
  | list _ => exact ⟨108, _, rfl, by decide⟩
  | dict _ => exact ⟨100, _, rfl, by decide⟩
  | str h1 h2 _ =>
    refine ⟨_, _, rfl, ?_⟩
    rintro rfl
    exact absurd h2 (by decide)

theorem getElem?_of_drop_nil {c : Bytes} {p : Nat} (h : c.drop p = []) : c[p]? = none := by
  have := congrArg List.head? h
  simpa [List.head?_drop] using this

theorem noValueAt_of_head {c : Bytes} {p : Nat} (h : ∀ b ∈ (c.drop p).head?, ¬ StartsValue b) : noValueAt c p := by
  rw [List.head?_drop] at h
  cases hb : c[p]? with
  | none => unfold noValueAt; rw [hb]; trivial
  | some b => exact noValueAt_of hb (h b (by simp [hb]))

theorem head_of_noValueAt {c : Bytes} {p : Nat} (h : noValueAt c p) : ∀ b ∈ (c.drop p).head?, ¬ StartsValue b := by
  intro b hb
  rw [List.head?_drop] at hb
  exact not_startsValue hb h

mutual
theorem panic_of_cut {d : Bytes} (h : Cut d) (c : Bytes) (p : Nat) (e : c.drop p = d) :
    ∃ f, decodeF f c p = .panic := by
  match h with
  | .int hd =>
    refine ⟨1, ?_⟩
    rw [decodeF, getElem?_of_drop e]
    simp only [if_true]
    exact parseInteger_panic.mpr (by rw [drop_succ e]; exact hd)
  | .str (b := b) (c := c') h1 h2 hs =>
    refine ⟨1, ?_⟩
    have hdig : isDigit b = true := by
      rw [isDigit_iff]
      simp only [UInt8.le_iff_toNat_le, UInt8.reduceToNat] at h1 h2
      omega
    have hn := digit_ne hdig
    rw [decodeF, getElem?_of_drop e]
    simp only [hn.1, hn.2.1, hn.2.2.1, if_false]
    rw [if_pos (by simp [h1, h2]), parseString_panic.mpr (by rw [e]; exact hs)]
    rfl
  | .list hs =>
    obtain ⟨f, hf⟩ := panic_of_cutElems hs c (p + 1) (drop_succ e) []
    refine ⟨f + 1, ?_⟩
    rw [decodeF, getElem?_of_drop e]
    simp only [show (108 : UInt8) ≠ 105 by decide, if_false, if_true]
    exact hf
  | .dict hs =>
    obtain ⟨f, hf⟩ := panic_of_cutEntries hs c (p + 1) (drop_succ e) []
    refine ⟨f + 1, ?_⟩
    rw [decodeF, getElem?_of_drop e]
    simp only [show (100 : UInt8) ≠ 105 by decide, show (100 : UInt8) ≠ 108 by decide, if_false, if_true]
    exact hf
theorem panic_of_cutElems {d : Bytes} (h : CutElems d) (c : Bytes) (p : Nat) (e : c.drop p = d) (acc : List Metainfo) :
    ∃ f, listLoop f c p acc = .panic := by
  match h with
  | .end => exact ⟨1, by rw [listLoop, getElem?_of_drop_nil e]⟩
  | .inner hs =>
    obtain ⟨f, hf⟩ := panic_of_cut hs c p e
    obtain ⟨b, t, rfl, hb⟩ := cut_head hs
    refine ⟨f + 1, ?_⟩
    rw [listLoop, getElem?_of_drop e]
    simp only [hb, if_false]
    rw [hf]
    rfl
  | .next (v := v) (bs := bs) (c := c') hv hs =>
    obtain ⟨f1, h1⟩ := decode_lenient hv c p c' e
    obtain ⟨f2, h2⟩ := panic_of_cutElems hs c _ (drop_add e) (acc ++ [v])
    obtain ⟨b, t, hb, hne, -⟩ := lenient_head hv
    refine ⟨max f1 f2 + 1, ?_⟩
    rw [listLoop, getElem?_of_drop (b := b) (t := t ++ c') (by rw [e, hb]; rfl)]
    simp only [hne, if_false]
    rw [decodeF_mono (Nat.le_max_left f1 f2) (by rw [h1]; simp), h1]
    simp only [Res.bind_ok]
    rw [listLoop_mono (Nat.le_max_right f1 f2) (by rw [h2]; simp), h2]
theorem panic_of_cutEntries {d : Bytes} (h : CutEntries d) (c : Bytes) (p : Nat) (e : c.drop p = d)
    (acc : List (Bytes × Metainfo)) : ∃ f, dictLoop f c p acc = .panic := by
  match h with
  | .end => exact ⟨1, by rw [dictLoop, getElem?_of_drop_nil e]⟩
  | .key hs =>
    refine ⟨1, ?_⟩
    by_cases hd : c.drop p = []
    · rw [dictLoop, getElem?_of_drop_nil hd]
    · obtain ⟨b, hb, hdig⟩ := cutStr_head (by rw [e]; exact hs) hd
      rw [dictLoop, hb]
      simp only [(digit_ne hdig).2.2.2, if_false]
      rw [parseString_panic.mpr (by rw [e]; exact hs)]
      rfl
  | .inner (ks := ks) (c := c') hk hu hs =>
    obtain ⟨f, hf⟩ := panic_of_cut hs c _ (drop_add e)
    obtain ⟨b, t, hb, hdig⟩ := lenientStr_head hk
    refine ⟨f + 1, ?_⟩
    rw [dictLoop, getElem?_of_drop (b := b) (t := t ++ c') (by rw [e, hb]; rfl)]
    simp only [(digit_ne hdig).2.2.2, if_false]
    rw [parseString_of_lenientStr hk e]
    simp only [Res.bind_ok, hu, if_true]
    rw [hf]
    rfl
  | .next (k := k) (v := v) (ks := ks) (bs := bs) (c := c') hk hu hv hs =>
    have e0 : c.drop p = ks ++ (bs ++ c') := by simpa using e
    obtain ⟨f1, h1⟩ := decode_lenient hv c _ c' (drop_add e0)
    obtain ⟨f2, h2⟩ := panic_of_cutEntries hs c _ (drop_add (drop_add e0)) (mapInsert acc k v)
    obtain ⟨b, t, hb, hdig⟩ := lenientStr_head hk
    refine ⟨max f1 f2 + 1, ?_⟩
    rw [dictLoop, getElem?_of_drop (b := b) (t := t ++ (bs ++ c')) (by rw [e0, hb]; rfl)]
    simp only [(digit_ne hdig).2.2.2, if_false]
    rw [parseString_of_lenientStr hk e0]
    simp only [Res.bind_ok, hu, if_true]
    rw [decodeF_mono (Nat.le_max_left f1 f2) (by rw [h1]; simp), h1]
    simp only [Res.bind_ok]
    rw [dictLoop_mono (Nat.le_max_right f1 f2) (by rw [h2]; simp), h2]
  | .noValue (k := k) (ks := ks) (c := c') hk hu hn hs =>
    obtain ⟨f2, h2⟩ := panic_of_cutEntries hs c _ (drop_add e) (mapInsert acc k .nothing)
    obtain ⟨b, t, hb, hdig⟩ := lenientStr_head hk
    have hnv : noValueAt c (p + ks.length) := noValueAt_of_head (by rw [drop_add e]; exact hn)
    refine ⟨(f2 + 1) + 1, ?_⟩
    rw [dictLoop, getElem?_of_drop (b := b) (t := t ++ c') (by rw [e, hb]; rfl)]
    simp only [(digit_ne hdig).2.2.2, if_false]
    rw [parseString_of_lenientStr hk e]
    simp only [Res.bind_ok, hu, if_true]
    rw [decodeF_noValue hnv]
    simp only [Res.bind_ok]
    rw [dictLoop_mono (Nat.le_succ f2) (by rw [h2]; simp), h2]
end

theorem cut_of_panic (f : Nat) :
    (∀ c p, decodeF f c p = .panic → Cut (c.drop p)) ∧
    (∀ c p acc, listLoop f c p acc = .panic → CutElems (c.drop p)) ∧
    (∀ c p acc, dictLoop f c p acc = .panic → CutEntries (c.drop p)) := by
  induction f with
  | zero => refine ⟨?_, ?_, ?_⟩ <;> intros <;> simp_all [decodeF, listLoop, dictLoop]
  | succ f ih =>
    obtain ⟨ih1, ih2, ih3⟩ := ih
    refine ⟨?_, ?_, ?_⟩
    · intro c p h
      rw [decodeF] at h
      cases hb : c[p]? with
      | none => simp [hb] at h
      | some b =>
        have hdr := drop_eq_of_getElem? hb
        simp only [hb] at h
        split at h
        · rename_i hbe
          subst hbe
          rw [hdr]
          exact .int (parseInteger_panic.mp h)
        · split at h
          · rename_i hbe
            subst hbe
            rw [hdr]
            exact .list (ih2 _ _ _ h)
          · split at h
            · rename_i hbe
              subst hbe
              rw [hdr]
              exact .dict (ih3 _ _ _ h)
            · split at h
              · rename_i hr
                have hs : parseString c p = .panic := by
                  cases hs : parseString c p <;> simp_all
                have := parseString_panic.mp hs
                rw [hdr] at this ⊢
                simp only [Bool.and_eq_true, decide_eq_true_eq] at hr
                exact .str hr.1 hr.2 this
              · simp at h
    · intro c p acc h
      rw [listLoop] at h
      cases hb : c[p]? with
      | none =>
        rw [List.drop_eq_nil_of_le (List.getElem?_eq_none_iff.mp hb)]
        exact .end
      | some b =>
        simp only [hb] at h
        split at h
        · simp at h
        · rename_i hbe
          cases hd : decodeF f c p with
          | ok a =>
            obtain ⟨w, p1⟩ := a
            rw [hd] at h
            simp only [Res.bind_ok] at h
            obtain ⟨h1, h2, h3⟩ := (progress f).1 _ _ _ _ hd
            by_cases e1 : p1 = p
            · subst e1
              rw [listLoop_stuck (h3 rfl).2 ⟨b, hb, hbe⟩] at h
              cases h
            · obtain ⟨bs, r1, ed, rfl, hl⟩ := (lenient_of_decode f).1 _ _ _ _ hd (by omega)
              have := ih2 _ _ _ h
              rw [drop_add ed] at this
              rw [ed]
              exact .next hl this
          | err e => rw [hd] at h; cases h
          | panic => exact .inner (ih1 _ _ hd)
          | hang => rw [hd] at h; cases h
    · intro c p acc h
      rw [dictLoop] at h
      cases hb : c[p]? with
      | none =>
        rw [List.drop_eq_nil_of_le (List.getElem?_eq_none_iff.mp hb)]
        exact .end
      | some b =>
        simp only [hb] at h
        split at h
        · simp at h
        · rename_i hbe
          cases hs : parseString c p with
          | ok a =>
            obtain ⟨k, p0⟩ := a
            rw [hs] at h
            simp only [Res.bind_ok] at h
            obtain ⟨ks, r0, ek, rfl, hk⟩ := lenientStr_of_parseString hs
            split at h
            · rename_i hu
              cases hd : decodeF f c (p + ks.length) with
              | ok a =>
                obtain ⟨w, p1⟩ := a
                rw [hd] at h
                simp only [Res.bind_ok] at h
                obtain ⟨h1, h2, h3⟩ := (progress f).1 _ _ _ _ hd
                by_cases e1 : p1 = p + ks.length
                · obtain ⟨rfl, hnv⟩ := h3 e1
                  subst e1
                  have := ih3 _ _ _ h
                  have hh := head_of_noValueAt hnv
                  rw [drop_add ek] at this hh
                  rw [ek]
                  exact .noValue hk hu hh this
                · obtain ⟨bs, r1, ed, rfl, hl⟩ := (lenient_of_decode f).1 _ _ _ _ hd (by omega)
                  have := ih3 _ _ _ h
                  rw [drop_add ed] at this
                  rw [drop_add ek] at ed
                  rw [ek, ed, ← List.append_assoc]
                  exact .next hk hu hl this
              | err e => rw [hd] at h; cases h
              | hang => rw [hd] at h; cases h
              | panic =>
                have := ih1 _ _ hd
                rw [drop_add ek] at this
                rw [ek]
                exact .inner hk hu this
            · cases h
          | err e => rw [hs] at h; cases h
          | panic => exact .key (parseString_panic.mp hs)
          | hang => rw [hs] at h; cases h

end RustBit
