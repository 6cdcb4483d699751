import Verif.Proofs.Grammar

/-!
Exactly which inputs the decoder accepts, and on which it loops for ever.
-/

namespace RustBit
open Spec Decoder

theorem parseString_of_lenientStr {s bs c rest : Bytes} {p : Nat} (h : LenientStr s bs)
    (e : c.drop p = bs ++ rest) : parseString c p = .ok (s, p + bs.length) := by
  cases h with
  | mk hne hd hx hv hl =>
    rename_i ds x
    exact parseString_ok.mpr ⟨ds, x, rest, by simpa using e, hne, hd, hx, hv, hl, by simp; omega⟩

theorem digit_ne {b : UInt8} (h : isDigit b = true) : b ≠ 105 ∧ b ≠ 108 ∧ b ≠ 100 ∧ b ≠ 101 := by
  rw [isDigit_iff] at h
  refine ⟨?_, ?_, ?_, ?_⟩ <;> rintro rfl <;> simp at h

theorem lenient_head {v : Metainfo} {bs : Bytes} (h : Lenient v bs) :
    ∃ b t, bs = b :: t ∧ b ≠ 101 ∧ StartsValue b := by
  cases h with
  | int _ _ _ _ => exact ⟨105, _, rfl, by decide, .inl rfl⟩
  | list _ => exact ⟨108, _, rfl, by decide, .inr (.inl rfl)⟩
  | dict _ => exact ⟨100, _, rfl, by decide, .inr (.inr (.inl rfl))⟩
  | str hs h48 =>
    obtain ⟨b, t, rfl, hb⟩ := lenientStr_head hs
    refine ⟨b, t, rfl, (digit_ne hb).2.2.2, .inr (.inr (.inr ?_))⟩
    rcases digit_cases b hb with rfl | h
    · exact absurd rfl h48
    · simpa using h

mutual
/-- The decoder accepts everything in the lenient grammar. -/
theorem decode_lenient {v : Metainfo} {bs : Bytes} (h : Lenient v bs) (c : Bytes) (p : Nat) (rest : Bytes)
    (e : c.drop p = bs ++ rest) : ∃ f, decodeF f c p = .ok (v, p + bs.length) := by
  match h with
  | .int (ds := ds) (x := x) hne hd hx hv =>
    refine ⟨1, ?_⟩
    rw [decodeF, getElem?_of_drop (b := 105) (t := ds ++ [x] ++ rest) (by simpa using e)]
    simp only [if_true]
    have e1 : c.drop (p + 1) = ds ++ x :: rest := drop_succ (by simpa using e)
    exact parseInteger_ok.mpr ⟨value ds, p + 1 + ds.length, getConsecutiveDigits_ok.mpr
      ⟨ds, x, rest, e1, hne, hd, hx, rfl, hv, rfl⟩, rfl, by simp; omega⟩
  | .str (s := s) (bs := bs) hs h48 =>
    refine ⟨1, ?_⟩
    obtain ⟨b, t, rfl, hb⟩ := lenientStr_head hs
    have hn := digit_ne hb
    rw [decodeF, getElem?_of_drop (b := b) (t := t ++ rest) (by simpa using e)]
    simp only [hn.1, hn.2.1, hn.2.2.1, if_false]
    rw [if_pos ((digit_cases b hb).resolve_left (by rintro rfl; exact h48 rfl)), parseString_of_lenientStr hs e]
    rfl
  | .list (l := l) (bs := bs) hl =>
    have e1 : c.drop (p + 1) = bs ++ 101 :: rest := drop_succ (by simpa using e)
    obtain ⟨f, hf⟩ := decode_lenientElems hl c (p + 1) [] rest e1
    refine ⟨f + 1, ?_⟩
    rw [decodeF, getElem?_of_drop (b := 108) (t := bs ++ [101] ++ rest) (by simpa using e)]
    simp only [show (108 : UInt8) ≠ 105 by decide, if_false, if_true]
    rw [hf]
    simp
    omega
  | .dict (m := m) (bs := bs) hd =>
    have e1 : c.drop (p + 1) = bs ++ 101 :: rest := drop_succ (by simpa using e)
    obtain ⟨f, hf⟩ := decode_lenientEntries hd c (p + 1) rest e1
    refine ⟨f + 1, ?_⟩
    rw [decodeF, getElem?_of_drop (b := 100) (t := bs ++ [101] ++ rest) (by simpa using e)]
    simp only [show (100 : UInt8) ≠ 105 by decide, show (100 : UInt8) ≠ 108 by decide, if_false, if_true]
    rw [hf]
    simp
    omega

theorem decode_lenientElems {l : List Metainfo} {bs : Bytes} (h : LenientElems l bs)
    (c : Bytes) (p : Nat) (acc : List Metainfo) (rest : Bytes) (e : c.drop p = bs ++ 101 :: rest) :
    ∃ f, listLoop f c p acc = .ok (.list (acc ++ l), p + bs.length + 1) := by
  match h with
  | .nil =>
    refine ⟨1, ?_⟩
    rw [listLoop, getElem?_of_drop (b := 101) (t := rest) (by simpa using e)]
    simp
  | .cons (v := v) (l := l) (bs := bs) (bs' := bs') hv hl =>
    have e0 : c.drop p = bs ++ (bs' ++ 101 :: rest) := by simpa using e
    obtain ⟨f1, h1⟩ := decode_lenient hv c p _ e0
    obtain ⟨f2, h2⟩ := decode_lenientElems hl c (p + bs.length) (acc ++ [v]) rest (drop_add e0)
    obtain ⟨b, t, hb, hne, -⟩ := lenient_head hv
    refine ⟨max f1 f2 + 1, ?_⟩
    rw [listLoop, getElem?_of_drop (b := b) (t := t ++ (bs' ++ 101 :: rest)) (by simp [e0, hb])]
    simp only [hne, if_false]
    rw [decodeF_mono (Nat.le_max_left f1 f2) (by rw [h1]; simp), h1]
    simp only [Res.bind_ok]
    rw [listLoop_mono (Nat.le_max_right f1 f2) (by rw [h2]; simp), h2]
    simp
    omega

theorem decode_lenientEntries {acc m : List (Bytes × Metainfo)} {bs : Bytes} (h : LenientEntries acc m bs)
    (c : Bytes) (p : Nat) (rest : Bytes) (e : c.drop p = bs ++ 101 :: rest) :
    ∃ f, dictLoop f c p acc = .ok (.dictionary m, p + bs.length + 1) := by
  match h with
  | .nil =>
    refine ⟨1, ?_⟩
    rw [dictLoop, getElem?_of_drop (b := 101) (t := rest) (by simpa using e)]
    simp
  | .cons (k := k) (v := v) (ks := ks) (bs := bs) (bs' := bs') hk hu hv hd =>
    have e0 : c.drop p = ks ++ (bs ++ (bs' ++ 101 :: rest)) := by simpa using e
    have e1 := drop_add e0
    have hps := parseString_of_lenientStr hk e0
    obtain ⟨f1, h1⟩ := decode_lenient hv c _ _ e1
    obtain ⟨f2, h2⟩ := decode_lenientEntries hd c _ rest (drop_add e1)
    obtain ⟨b, t, hb, hdig⟩ := lenientStr_head hk
    refine ⟨max f1 f2 + 1, ?_⟩
    rw [dictLoop, getElem?_of_drop (b := b) (t := t ++ (bs ++ (bs' ++ 101 :: rest))) (by simp [e0, hb])]
    simp only [(digit_ne hdig).2.2.2, if_false]
    rw [hps]
    simp only [Res.bind_ok, hu, if_true]
    rw [decodeF_mono (Nat.le_max_left f1 f2) (by rw [h1]; simp), h1]
    simp only [Res.bind_ok]
    rw [dictLoop_mono (Nat.le_max_right f1 f2) (by rw [h2]; simp), h2]
    simp
    omega
  | .noValue (k := k) (ks := ks) (bs' := bs') hk hu hn hd =>
    have e0 : c.drop p = ks ++ (bs' ++ 101 :: rest) := by simpa using e
    have e1 := drop_add e0
    have hps := parseString_of_lenientStr hk e0
    obtain ⟨f2, h2⟩ := decode_lenientEntries hd c _ rest e1
    obtain ⟨b, t, hb, hdig⟩ := lenientStr_head hk
    have hnv : noValueAt c (p + ks.length) := by
      unfold noValueAt
      rcases hn with rfl | hn
      · rw [getElem?_of_drop (b := 101) (t := rest) (by simpa using e1)]
        decide
      · cases bs' with
        | nil => simp at hn
        | cons x t =>
          simp only [List.head?_cons, Option.some.injEq] at hn
          subst hn
          rw [getElem?_of_drop (b := 48) (t := t ++ 101 :: rest) (by simpa using e1)]
          decide
    refine ⟨(f2 + 1) + 1, ?_⟩
    rw [dictLoop, getElem?_of_drop (b := b) (t := t ++ (bs' ++ 101 :: rest)) (by simp [e0, hb])]
    simp only [(digit_ne hdig).2.2.2, if_false]
    rw [hps]
    simp only [Res.bind_ok, hu, if_true]
    rw [decodeF_noValue hnv]
    simp only [Res.bind_ok]
    rw [dictLoop_mono (Nat.le_succ f2) (by rw [h2]; simp), h2]
    simp
    omega
end

/-- With any fuel a lenient document is read, or the fuel does not suffice. -/
theorem decodeF_lenient {v : Metainfo} {bs : Bytes} (h : Lenient v bs) {c : Bytes} {p : Nat} {rest : Bytes}
    (e : c.drop p = bs ++ rest) (f : Nat) : decodeF f c p = .hang ∨ decodeF f c p = .ok (v, p + bs.length) := by
  obtain ⟨g, hg⟩ := decode_lenient h c p rest e
  by_cases hf : decodeF f c p = .hang
  · exact .inl hf
  · right
    rw [← decodeF_mono (Nat.le_max_left f g) hf, decodeF_mono (Nat.le_max_right f g) (by rw [hg]; simp), hg]

theorem noValueAt_of {c : Bytes} {p : Nat} {b : UInt8} (hb : c[p]? = some b) (h : ¬ StartsValue b) : noValueAt c p := by
  unfold noValueAt
  rw [hb]
  unfold StartsValue at h
  simp only [not_or] at h
  exact ⟨h.1, h.2.1, h.2.2.1, by simpa using h.2.2.2⟩

theorem not_startsValue {c : Bytes} {p : Nat} {b : UInt8} (hb : c[p]? = some b) (h : noValueAt c p) : ¬ StartsValue b := by
  unfold noValueAt at h
  rw [hb] at h
  rintro (h1 | h1 | h1 | h1)
  · exact h.1 h1
  · exact h.2.1 h1
  · exact h.2.2.1 h1
  · exact h.2.2.2 (by simpa using h1)

mutual
/-- On stuck inputs no fuel suffices. -/
theorem hang_of_stuck {d : Bytes} (h : Stuck d) (c : Bytes) (p : Nat) (e : c.drop p = d) :
    ∀ f, decodeF f c p = .hang := by
  intro f
  match f, h with
  | 0, _ => rw [decodeF]
  | f + 1, .list hs =>
    rw [decodeF, getElem?_of_drop e]
    simp only [show (108 : UInt8) ≠ 105 by decide, if_false, if_true]
    exact hang_of_stuckElems hs c (p + 1) (drop_succ e) f []
  | f + 1, .dict hs =>
    rw [decodeF, getElem?_of_drop e]
    simp only [show (100 : UInt8) ≠ 105 by decide, show (100 : UInt8) ≠ 108 by decide, if_false, if_true]
    exact hang_of_stuckEntries hs c (p + 1) (drop_succ e) f []
theorem hang_of_stuckElems {d : Bytes} (h : StuckElems d) (c : Bytes) (p : Nat) (e : c.drop p = d) :
    ∀ f acc, listLoop f c p acc = .hang := by
  intro f acc
  match h with
  | .here hb hs =>
    have hc := getElem?_of_drop e
    exact listLoop_stuck (noValueAt_of hc hs) ⟨_, hc, hb⟩ f acc
  | .inner hs =>
    cases f with
    | zero => rw [listLoop]
    | succ f =>
      have hd := hang_of_stuck hs c p e
      have hne : ∃ b t, d = b :: t ∧ b ≠ 101 := by
        cases hs with
        | list _ => exact ⟨108, _, rfl, by decide⟩
        | dict _ => exact ⟨100, _, rfl, by decide⟩
      obtain ⟨b, t, rfl, hb⟩ := hne
      rw [listLoop, getElem?_of_drop e]
      simp only [hb, if_false]
      rw [hd f]
      rfl
  | .next (bs := bs) (c := c') hv hs =>
    cases f with
    | zero => rw [listLoop]
    | succ f =>
      obtain ⟨b, t, hb, hne, -⟩ := lenient_head hv
      rw [listLoop, getElem?_of_drop (b := b) (t := t ++ c') (by rw [e, hb]; rfl)]
      simp only [hne, if_false]
      rcases decodeF_lenient hv e f with h1 | h1
      · rw [h1]; rfl
      · rw [h1]
        exact hang_of_stuckElems hs c _ (drop_add e) f _
theorem hang_of_stuckEntries {d : Bytes} (h : StuckEntries d) (c : Bytes) (p : Nat) (e : c.drop p = d) :
    ∀ f acc, dictLoop f c p acc = .hang := by
  intro f acc
  match h with
  | .inner (ks := ks) (c := c') hk hu hs =>
    cases f with
    | zero => rw [dictLoop]
    | succ f =>
      obtain ⟨b, t, hb, hdig⟩ := lenientStr_head hk
      rw [dictLoop, getElem?_of_drop (b := b) (t := t ++ c') (by rw [e, hb]; rfl)]
      simp only [(digit_ne hdig).2.2.2, if_false]
      rw [parseString_of_lenientStr hk e]
      simp only [Res.bind_ok, hu, if_true]
      rw [hang_of_stuck hs c _ (drop_add e) f]
      rfl
  | .next (ks := ks) (bs := bs) (c := c') hk hu hv hs =>
    cases f with
    | zero => rw [dictLoop]
    | succ f =>
      have e0 : c.drop p = ks ++ (bs ++ c') := by simpa using e
      obtain ⟨b, t, hb, hdig⟩ := lenientStr_head hk
      rw [dictLoop, getElem?_of_drop (b := b) (t := t ++ (bs ++ c')) (by rw [e0, hb]; rfl)]
      simp only [(digit_ne hdig).2.2.2, if_false]
      rw [parseString_of_lenientStr hk e0]
      simp only [Res.bind_ok, hu, if_true]
      rcases decodeF_lenient hv (drop_add e0) f with h1 | h1
      · rw [h1]; rfl
      · rw [h1]
        exact hang_of_stuckEntries hs c _ (drop_add (drop_add e0)) f _
  | .noValue (ks := ks) (b := x) (c := c') hk hu hn hs =>
    cases f with
    | zero => rw [dictLoop]
    | succ f =>
      obtain ⟨b, t, hb, hdig⟩ := lenientStr_head hk
      rw [dictLoop, getElem?_of_drop (b := b) (t := t ++ x :: c') (by rw [e, hb]; rfl)]
      simp only [(digit_ne hdig).2.2.2, if_false]
      rw [parseString_of_lenientStr hk e]
      simp only [Res.bind_ok, hu, if_true]
      have hnv := noValueAt_of (getElem?_of_drop (drop_add e)) hn
      cases f with
      | zero => rw [decodeF]; rfl
      | succ f =>
        rw [decodeF_noValue hnv]
        exact hang_of_stuckEntries hs c _ (drop_add e) (f + 1) _
end

/-- If enough fuel does not suffice the input is stuck. -/
theorem stuck_of_hang (f : Nat) :
    (∀ c p, 2 * (c.length - p) + 1 ≤ f → decodeF f c p = .hang → Stuck (c.drop p)) ∧
    (∀ c p acc, 2 * (c.length - p) + 2 ≤ f → listLoop f c p acc = .hang → StuckElems (c.drop p)) ∧
    (∀ c p acc, 2 * (c.length - p) + 2 ≤ f → dictLoop f c p acc = .hang → StuckEntries (c.drop p)) := by
  induction f with
  | zero => exact ⟨fun c p h => by omega, fun c p acc h => by omega, fun c p acc h => by omega⟩
  | succ f ih =>
    obtain ⟨ih1, ih2, ih3⟩ := ih
    refine ⟨?_, ?_, ?_⟩
    · intro c p hf h
      rw [decodeF] at h
      cases hb : c[p]? with
      | none => simp [hb] at h
      | some b =>
        have hdr := drop_eq_of_getElem? hb
        have hlt := (List.getElem?_eq_some_iff.mp hb).1
        simp only [hb] at h
        split at h
        · exact absurd h (parseInteger_ne_hang c p)
        · split at h
          · rename_i hbe
            subst hbe
            rw [hdr]
            exact .list (ih2 _ _ _ (by omega) h)
          · split at h
            · rename_i hbe
              subst hbe
              rw [hdr]
              exact .dict (ih3 _ _ _ (by omega) h)
            · split at h
              · have := parseString_ne_hang c p
                cases hs : parseString c p <;> simp_all
              · simp at h
    · intro c p acc hf h
      rw [listLoop] at h
      cases hb : c[p]? with
      | none => simp [hb] at h
      | some b =>
        have hdr := drop_eq_of_getElem? hb
        have hlt := (List.getElem?_eq_some_iff.mp hb).1
        simp only [hb] at h
        split at h
        · simp at h
        · rename_i hbe
          cases hd : decodeF f c p with
          | ok a =>
            obtain ⟨w, p1⟩ := a
            rw [hd] at h
            simp only [Res.bind_ok] at h
            obtain ⟨h1, h2, h3⟩ := (progress f).1 _ _ _ _ hd
            by_cases e1 : p1 = p
            · rw [hdr]
              exact .here hbe (not_startsValue hb (h3 e1).2)
            · obtain ⟨bs, r1, ed, rfl, hl⟩ := (lenient_of_decode f).1 _ _ _ _ hd (by omega)
              have := ih2 _ _ _ (by omega) h
              rw [drop_add ed] at this
              rw [ed]
              exact .next hl this
          | err e => rw [hd] at h; cases h
          | panic => rw [hd] at h; cases h
          | hang => exact .inner (ih1 _ _ (by omega) hd)
    · intro c p acc hf h
      rw [dictLoop] at h
      cases hb : c[p]? with
      | none => simp [hb] at h
      | some b =>
        have hdr := drop_eq_of_getElem? hb
        have hlt := (List.getElem?_eq_some_iff.mp hb).1
        simp only [hb] at h
        split at h
        · simp at h
        · rename_i hbe
          cases hs : parseString c p with
          | ok a =>
            obtain ⟨k, p0⟩ := a
            have hbd := parseString_bounds hs
            rw [hs] at h
            simp only [Res.bind_ok] at h
            obtain ⟨ks, r0, ek, rfl, hk⟩ := lenientStr_of_parseString hs
            split at h
            · rename_i hu
              cases hd : decodeF f c (p + ks.length) with
              | ok a =>
                obtain ⟨w, p1⟩ := a
                rw [hd] at h
                simp only [Res.bind_ok] at h
                obtain ⟨h1, h2, h3⟩ := (progress f).1 _ _ _ _ hd
                by_cases e1 : p1 = p + ks.length
                · obtain ⟨rfl, hnv⟩ := h3 e1
                  subst e1
                  have := ih3 _ _ _ (by omega) h
                  rw [drop_add ek] at this
                  rw [ek]
                  cases r0 with
                  | nil =>
                    have hnil : c.drop (p + ks.length) = [] := drop_add ek
                    have : c[p + ks.length]? = none := by
                      have := congrArg List.head? hnil
                      simpa [List.head?_drop] using this
                    cases f with
                    | zero => omega
                    | succ f =>
                      rw [dictLoop, this] at h
                      simp at h
                  | cons x r0 =>
                    exact .noValue hk hu (not_startsValue (getElem?_of_drop (drop_add ek)) hnv) this
                · obtain ⟨bs, r1, ed, rfl, hl⟩ := (lenient_of_decode f).1 _ _ _ _ hd (by omega)
                  have := ih3 _ _ _ (by omega) h
                  rw [drop_add ed] at this
                  rw [drop_add ek] at ed
                  rw [ek, ed, ← List.append_assoc]
                  exact .next hk hu hl this
              | err e => rw [hd] at h; cases h
              | panic => rw [hd] at h; cases h
              | hang =>
                have := ih1 _ _ (by omega) hd
                rw [drop_add ek] at this
                rw [ek]
                exact .inner hk hu this
            · cases h
          | err e => rw [hs] at h; cases h
          | panic => rw [hs] at h; cases h
          | hang => exact absurd hs (parseString_ne_hang c p)

end RustBit
