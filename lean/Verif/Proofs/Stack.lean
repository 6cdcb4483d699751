import Verif.Model.Stack
import Verif.Spec.Stack
import Verif.Proofs.Cut

/-!
How deep the calls of the decoder nest.
-/

namespace RustBit
open Spec Decoder

/-- More fuel, more depth. -/
theorem depth_mono_step (f : Nat) :
    (∀ c p, depthF f c p ≤ depthF (f + 1) c p) ∧ (∀ c p, listDepth f c p ≤ listDepth (f + 1) c p) ∧
    (∀ c p, dictDepth f c p ≤ dictDepth (f + 1) c p) := by
  induction f with
  | zero =>
    refine ⟨fun c p => ?_, fun c p => by rw [listDepth]; omega, fun c p => by rw [dictDepth]; omega⟩
    rw [depthF, depthF]
    cases c[p]? with
    | none => simp
    | some b => simp only []; repeat' split
                all_goals omega
  | succ f ih =>
    obtain ⟨ih1, ih2, ih3⟩ := ih
    refine ⟨fun c p => ?_, fun c p => ?_, fun c p => ?_⟩
    · rw [depthF, depthF]
      cases c[p]? with
      | none => simp
      | some b =>
        have h2 := ih2 c (p + 1)
        have h3 := ih3 c (p + 1)
        simp only []
        repeat' split
        all_goals omega
    · rw [listDepth, listDepth]
      cases c[p]? with
      | none => simp
      | some b =>
        simp only []
        split
        · omega
        · have h1 := ih1 c p
          cases hd : decodeF f c p with
          | ok a =>
            obtain ⟨v, p1⟩ := a
            rw [(mono f).1 c p (by rw [hd]; simp), hd]
            have h2 := ih2 c p1
            simp only []
            omega
          | err e => cases hd' : decodeF (f + 1) c p <;> simp only [] <;> omega
          | panic => cases hd' : decodeF (f + 1) c p <;> simp only [] <;> omega
          | hang => cases hd' : decodeF (f + 1) c p <;> simp only [] <;> omega
    · rw [dictDepth, dictDepth]
      cases c[p]? with
      | none => simp
      | some b =>
        simp only []
        split
        · omega
        · cases hs : parseString c p with
          | ok a =>
            obtain ⟨k, p1⟩ := a
            simp only []
            split
            · have h1 := ih1 c p1
              cases hd : decodeF f c p1 with
              | ok a =>
                obtain ⟨v, p2⟩ := a
                rw [(mono f).1 c p1 (by rw [hd]; simp), hd]
                have h3 := ih3 c p2
                simp only []
                omega
              | err e => cases hd' : decodeF (f + 1) c p1 <;> simp only [] <;> omega
              | panic => cases hd' : decodeF (f + 1) c p1 <;> simp only [] <;> omega
              | hang => cases hd' : decodeF (f + 1) c p1 <;> simp only [] <;> omega
            · omega
          | err e => simp
          | panic => simp
          | hang => simp

theorem depthF_mono {f g : Nat} (h : f ≤ g) (c : Bytes) (p : Nat) : depthF f c p ≤ depthF g c p := by
  induction h with
  | refl => exact Nat.le_refl _
  | step _ ih => exact Nat.le_trans ih ((depth_mono_step _).1 c p)

theorem listDepth_mono {f g : Nat} (h : f ≤ g) (c : Bytes) (p : Nat) : listDepth f c p ≤ listDepth g c p := by
  induction h with
  | refl => exact Nat.le_refl _
  | step _ ih => exact Nat.le_trans ih ((depth_mono_step _).2.1 c p)

theorem dictDepth_mono {f g : Nat} (h : f ≤ g) (c : Bytes) (p : Nat) : dictDepth f c p ≤ dictDepth g c p := by
  induction h with
  | refl => exact Nat.le_refl _
  | step _ ih => exact Nat.le_trans ih ((depth_mono_step _).2.2 c p)

/-- Calls that nest deeply are due to a deeply nested input. -/
theorem deep_of_depth (f : Nat) :
    (∀ n c p, n ≤ depthF f c p → Deep n (c.drop p)) ∧
    (∀ n c p, 0 < n → n ≤ listDepth f c p → DeepElems n (c.drop p)) ∧
    (∀ n c p, 0 < n → n ≤ dictDepth f c p → DeepEntries n (c.drop p)) := by
  induction f with
  | zero =>
    refine ⟨fun n c p h => .here (by simpa [depthF] using h), fun n c p h0 h => ?_, fun n c p h0 h => ?_⟩
    · rw [listDepth] at h; omega
    · rw [dictDepth] at h; omega
  | succ f ih =>
    obtain ⟨ih1, ih2, ih3⟩ := ih
    refine ⟨fun n c p h => ?_, fun n c p h0 h => ?_, fun n c p h0 h => ?_⟩
    · by_cases hn : n ≤ 1
      · exact .here hn
      · obtain ⟨m, rfl⟩ : ∃ m, n = m + 1 := ⟨n - 1, by omega⟩
        rw [depthF] at h
        cases hb : c[p]? with
        | none => rw [hb] at h; simp only [] at h; omega
        | some b =>
          rw [drop_eq_of_getElem? hb]
          rw [hb] at h
          simp only [] at h
          split at h
          · omega
          · split at h
            · rename_i hbe
              subst hbe
              exact .list (ih2 _ _ _ (by omega) (by omega))
            · split at h
              · rename_i hbe
                subst hbe
                exact .dict (ih3 _ _ _ (by omega) (by omega))
              · omega
    · rw [listDepth] at h
      cases hb : c[p]? with
      | none => rw [hb] at h; simp only [] at h; omega
      | some b =>
        have hdr := drop_eq_of_getElem? hb
        rw [hb] at h
        simp only [] at h
        split at h
        · omega
        · rename_i hbe
          have inner : n ≤ depthF f c p → DeepElems n (c.drop p) := by
            intro h'
            have := ih1 n c p h'
            rw [hdr] at this ⊢
            exact .inner hbe this
          cases hd : decodeF f c p with
          | ok a =>
            obtain ⟨w, p1⟩ := a
            rw [hd] at h
            simp only [] at h
            by_cases h' : n ≤ depthF f c p
            · exact inner h'
            · have h2 : n ≤ listDepth f c p1 := by omega
              obtain ⟨h1, -, -⟩ := (progress f).1 _ _ _ _ hd
              by_cases e1 : p1 = p
              · rw [e1] at h2
                exact ih2 _ _ _ h0 h2
              · obtain ⟨bs, r1, ed, rfl, hl⟩ := (lenient_of_decode f).1 _ _ _ _ hd (by omega)
                have := ih2 _ _ _ h0 h2
                rw [drop_add ed] at this
                rw [ed]
                exact .next hl this
          | err e => rw [hd] at h; exact inner h
          | panic => rw [hd] at h; exact inner h
          | hang => rw [hd] at h; exact inner h
    · rw [dictDepth] at h
      cases hb : c[p]? with
      | none => rw [hb] at h; simp only [] at h; omega
      | some b =>
        rw [hb] at h
        simp only [] at h
        split at h
        · omega
        · cases hs : parseString c p with
          | ok a =>
            obtain ⟨k, p1⟩ := a
            rw [hs] at h
            simp only [] at h
            obtain ⟨ds, x, rest, e, hne, hdig, hx, hv, hl, rfl⟩ := parseString_ok.mp hs
            have hk : LenientStr k (ds ++ x :: k) := .mk hne hdig hx hv hl
            have e0 : c.drop p = (ds ++ x :: k) ++ rest := by simpa using e
            have e1 := drop_add e0
            have el : p + (ds ++ x :: k).length = p + ds.length + 1 + k.length := by simp; omega
            rw [el] at e1
            split at h
            · rename_i hu
              have inner : n ≤ depthF f c (p + ds.length + 1 + k.length) → DeepEntries n (c.drop p) := by
                intro h'
                have := ih1 n c _ h'
                rw [e1] at this
                rw [e0]
                exact .inner hk hu this
              cases hd : decodeF f c (p + ds.length + 1 + k.length) with
              | ok a =>
                obtain ⟨w, p2⟩ := a
                rw [hd] at h
                simp only [] at h
                by_cases h' : n ≤ depthF f c (p + ds.length + 1 + k.length)
                · exact inner h'
                · have h2 : n ≤ dictDepth f c p2 := by omega
                  obtain ⟨h1, -, h3⟩ := (progress f).1 _ _ _ _ hd
                  have hi := ih3 _ _ _ h0 h2
                  by_cases ee : p2 = p + ds.length + 1 + k.length
                  · rw [ee, e1] at hi
                    have hnv := (h3 ee).2
                    cases rest with
                    | nil =>
                      exact inner (by
                        exfalso
                        rw [ee] at h2
                        cases f with
                        | zero => rw [dictDepth] at h2; omega
                        | succ f =>
                          rw [dictDepth, getElem?_of_drop_nil e1] at h2
                          simp only [] at h2; omega)
                    | cons y t =>
                      rw [e0]
                      exact .noValue hk hu (not_startsValue (getElem?_of_drop e1) hnv) hi
                  · obtain ⟨bs, r1, ed, rfl, hlv⟩ := (lenient_of_decode f).1 _ _ _ _ hd (by omega)
                    rw [drop_add ed] at hi
                    rw [e1] at ed
                    rw [e0, ed, ← List.append_assoc]
                    exact .next hk hu hlv hi
              | err e => rw [hd] at h; exact inner h
              | panic => rw [hd] at h; exact inner h
              | hang => rw [hd] at h; exact inner h
            · omega
          | err e => rw [hs] at h; simp only [] at h; omega
          | panic => rw [hs] at h; simp only [] at h; omega
          | hang => rw [hs] at h; simp only [] at h; omega

mutual
/-- A deeply nested input makes the calls nest as deeply. -/
theorem depth_of_deep {n : Nat} {d : Bytes} (h : Deep n d) (c : Bytes) (p : Nat) (e : c.drop p = d) : ∃ f, n ≤ depthF f c p := by
  match h with
  | .here hn => exact ⟨0, by rw [depthF]; exact hn⟩
  | .list hs =>
    obtain ⟨f, hf⟩ := depth_of_deepElems hs c (p + 1) (drop_succ e)
    refine ⟨f + 1, ?_⟩
    rw [depthF, getElem?_of_drop e]
    simp only [show (108 : UInt8) ≠ 105 by decide, if_false, if_true]
    omega
  | .dict hs =>
    obtain ⟨f, hf⟩ := depth_of_deepEntries hs c (p + 1) (drop_succ e)
    refine ⟨f + 1, ?_⟩
    rw [depthF, getElem?_of_drop e]
    simp only [show (100 : UInt8) ≠ 105 by decide, show (100 : UInt8) ≠ 108 by decide, if_false, if_true]
    omega
theorem depth_of_deepElems {n : Nat} {d : Bytes} (h : DeepElems n d) (c : Bytes) (p : Nat) (e : c.drop p = d) : ∃ f, n ≤ listDepth f c p := by
  match h with
  | .inner hb hs =>
    obtain ⟨f, hf⟩ := depth_of_deep hs c p e
    refine ⟨f + 1, ?_⟩
    rw [listDepth, getElem?_of_drop e]
    simp only [hb, if_false]
    split <;> omega
  | .next (bs := bs) (c := c') hv hs =>
    obtain ⟨f1, h1⟩ := decode_lenient hv c p c' e
    obtain ⟨f2, h2⟩ := depth_of_deepElems hs c _ (drop_add e)
    obtain ⟨b, t, hb, hne, -⟩ := lenient_head hv
    refine ⟨max f1 f2 + 1, ?_⟩
    rw [listDepth, getElem?_of_drop (b := b) (t := t ++ c') (by rw [e, hb]; rfl)]
    simp only [hne, if_false]
    rw [decodeF_mono (Nat.le_max_left f1 f2) (by rw [h1]; simp), h1]
    have := listDepth_mono (Nat.le_max_right f1 f2) c (p + bs.length)
    simp only []
    omega
theorem depth_of_deepEntries {n : Nat} {d : Bytes} (h : DeepEntries n d) (c : Bytes) (p : Nat) (e : c.drop p = d) : ∃ f, n ≤ dictDepth f c p := by
  match h with
  | .inner (ks := ks) (c := c') hk hu hs =>
    obtain ⟨f, hf⟩ := depth_of_deep hs c _ (drop_add e)
    obtain ⟨b, t, hb, hdig⟩ := lenientStr_head hk
    refine ⟨f + 1, ?_⟩
    rw [dictDepth, getElem?_of_drop (b := b) (t := t ++ c') (by rw [e, hb]; rfl)]
    simp only [(digit_ne hdig).2.2.2, if_false]
    rw [parseString_of_lenientStr hk e]
    simp only [hu, if_true]
    split <;> omega
  | .next (ks := ks) (bs := bs) (c := c') hk hu hv hs =>
    have e0 : c.drop p = ks ++ (bs ++ c') := by simpa using e
    have e1 := drop_add e0
    obtain ⟨f1, h1⟩ := decode_lenient hv c _ _ e1
    obtain ⟨f2, h2⟩ := depth_of_deepEntries hs c _ (drop_add e1)
    obtain ⟨b, t, hb, hdig⟩ := lenientStr_head hk
    refine ⟨max f1 f2 + 1, ?_⟩
    rw [dictDepth, getElem?_of_drop (b := b) (t := t ++ (bs ++ c')) (by rw [e0, hb]; rfl)]
    simp only [(digit_ne hdig).2.2.2, if_false]
    rw [parseString_of_lenientStr hk e0]
    simp only [hu, if_true]
    rw [decodeF_mono (Nat.le_max_left f1 f2) (by rw [h1]; simp), h1]
    have := dictDepth_mono (Nat.le_max_right f1 f2) c (p + ks.length + bs.length)
    simp only []
    omega
  | .noValue (ks := ks) (b := x) (c := c') hk hu hn hs =>
    have e1 := drop_add e
    obtain ⟨f2, h2⟩ := depth_of_deepEntries hs c _ e1
    obtain ⟨b, t, hb, hdig⟩ := lenientStr_head hk
    have hnv := noValueAt_of (getElem?_of_drop e1) hn
    refine ⟨f2 + 1 + 1, ?_⟩
    rw [dictDepth, getElem?_of_drop (b := b) (t := t ++ x :: c') (by rw [e, hb]; rfl)]
    simp only [(digit_ne hdig).2.2.2, if_false]
    rw [parseString_of_lenientStr hk e]
    simp only [hu, if_true]
    rw [decodeF_noValue hnv]
    have := dictDepth_mono (Nat.le_add_right f2 1) c (p + ks.length)
    simp only []
    omega
end

theorem reaches_iff (n : Nat) (c : Bytes) : Reaches n c ↔ Deep n c :=
  ⟨fun ⟨f, h⟩ => by simpa using (deep_of_depth f).1 n c 0 h, fun h => depth_of_deep h c 0 (by simp)⟩

mutual
/-- Nesting costs at least one byte per level. -/
theorem deep_length {n : Nat} {c : Bytes} (h : Deep n c) : n ≤ 1 ∨ n ≤ c.length := by
  match h with
  | .here hn => exact .inl hn
  | .list hs => have := deepElems_length hs; simp only [List.length_cons]; omega
  | .dict hs => have := deepEntries_length hs; simp only [List.length_cons]; omega
theorem deepElems_length {n : Nat} {c : Bytes} (h : DeepElems n c) : n ≤ c.length := by
  match h with
  | .inner _ hs => have := deep_length hs; simp only [List.length_cons] at *; omega
  | .next _ hs => have := deepElems_length hs; simp only [List.length_append]; omega
theorem deepEntries_length {n : Nat} {c : Bytes} (h : DeepEntries n c) : n ≤ c.length := by
  match h with
  | .inner hk _ hs =>
    have := deep_length hs
    obtain ⟨b, t, rfl, -⟩ := lenientStr_head hk
    simp only [List.length_append, List.length_cons]; omega
  | .next _ _ _ hs => have := deepEntries_length hs; simp only [List.length_append]; omega
  | .noValue _ _ _ hs => have := deepEntries_length hs; simp only [List.length_append]; omega
end

mutual
/-- Reading a supported document nests no deeper than the document. -/
theorem depth_doc {v : BVal} {bs : Bytes} (h : IsBencode v bs) (hr : Readable v) (c : Bytes) (p : Nat) (rest : Bytes)
    (e : c.drop p = bs ++ rest) (f : Nat) : depthF f c p ≤ nesting v := by
  match f, h with
  | 0, h => rw [depthF]; cases v <;> simp [nesting]
  | f + 1, .int (bs := bs) hi =>
    rw [depthF, getElem?_of_drop (b := 105) (t := bs ++ [101] ++ rest) (by simpa using e)]
    simp [nesting]
  | f + 1, .str hs =>
    obtain ⟨b, t, hb, hne⟩ := isStr_head hs
    have hd : b ≠ 105 ∧ b ≠ 108 ∧ b ≠ 100 := by
      obtain ⟨ds, hds, rfl⟩ := hs
      cases ds with
      | nil => exact absurd rfl hds.nonempty
      | cons d t =>
        simp only [List.cons_append, List.cons.injEq] at hb
        have := hds.digits d (by simp)
        rw [hb.1] at this
        refine ⟨?_, ?_, ?_⟩ <;> rintro rfl <;> simp at this
    rw [depthF, getElem?_of_drop (b := b) (t := t ++ rest) (by simp [e, hb])]
    simp [nesting, hd.1, hd.2.1, hd.2.2]
  | f + 1, .list (bs := bs) hl =>
    have e1 : c.drop (p + 1) = bs ++ 101 :: rest := drop_succ (by simpa using e)
    have := depth_elems hl hr c (p + 1) rest e1 f
    rw [depthF, getElem?_of_drop (b := 108) (t := bs ++ [101] ++ rest) (by simpa using e)]
    simp only [show (108 : UInt8) ≠ 105 by decide, if_false, if_true, nesting]
    omega
  | f + 1, .dict (bs := bs) hd =>
    have e1 : c.drop (p + 1) = bs ++ 101 :: rest := drop_succ (by simpa using e)
    have := depth_entries hd hr c (p + 1) rest e1 f
    rw [depthF, getElem?_of_drop (b := 100) (t := bs ++ [101] ++ rest) (by simpa using e)]
    simp only [show (100 : UInt8) ≠ 105 by decide, show (100 : UInt8) ≠ 108 by decide, if_false, if_true, nesting]
    omega
theorem depth_elems {l : List BVal} {bs : Bytes} (h : IsElems l bs) (hr : ReadableElems l) (c : Bytes) (p : Nat) (rest : Bytes)
    (e : c.drop p = bs ++ 101 :: rest) (f : Nat) : listDepth f c p ≤ nestingElems l := by
  match f, h with
  | 0, h => rw [listDepth]; omega
  | f + 1, .nil =>
    rw [listDepth, getElem?_of_drop (b := 101) (t := rest) (by simpa using e)]
    simp
  | f + 1, .cons (bs := bs) (bs' := bs') hv hl =>
    have e0 : c.drop p = bs ++ (bs' ++ 101 :: rest) := by simpa using e
    have h1 := depth_doc hv hr.1 c p _ e0 f
    have h2 := depth_elems hl hr.2 c (p + bs.length) rest (drop_add e0) f
    obtain ⟨b, t, hb, hne, -⟩ := isBencode_head hv
    rw [listDepth, getElem?_of_drop (b := b) (t := t ++ (bs' ++ 101 :: rest)) (by simp [e0, hb])]
    simp only [hne, if_false, nestingElems]
    obtain ⟨g, hg⟩ := decode_doc hv hr.1 c p _ e0
    by_cases hh : decodeF f c p = .hang
    · rw [hh]; simp only []; omega
    · have : decodeF f c p = decodeF g c p := by
        rw [← decodeAt_of_fuel hh, ← decodeAt_of_fuel (f := g) (by rw [hg]; simp)]
      rw [this, hg]; simp only []; omega
theorem depth_entries {d : List (Bytes × BVal)} {bs : Bytes} (h : IsEntries d bs) (hr : ReadableEntries d) (c : Bytes) (p : Nat) (rest : Bytes)
    (e : c.drop p = bs ++ 101 :: rest) (f : Nat) : dictDepth f c p ≤ nestingEntries d := by
  match f, h with
  | 0, h => rw [dictDepth]; omega
  | f + 1, .nil =>
    rw [dictDepth, getElem?_of_drop (b := 101) (t := rest) (by simpa using e)]
    simp
  | f + 1, .cons (ks := ks) (bs := bs) (bs' := bs') hk hv hd =>
    obtain ⟨hu, hkl, hrv, hrd⟩ := hr
    have e0 : c.drop p = ks ++ (bs ++ (bs' ++ 101 :: rest)) := by simpa using e
    have e1 := drop_add e0
    have h1 := depth_doc hv hrv c _ _ e1 f
    have h2 := depth_entries hd hrd c _ rest (drop_add e1) f
    obtain ⟨b, t, hb, -, hne⟩ := isStr_head hk
    rw [dictDepth, getElem?_of_drop (b := b) (t := t ++ (bs ++ (bs' ++ 101 :: rest))) (by simp [e0, hb])]
    simp only [hne, if_false, nestingEntries]
    rw [parseString_of_isStr hk hkl e0]
    simp only [hu, if_true]
    obtain ⟨g, hg⟩ := decode_doc hv hrv c _ _ e1
    by_cases hh : decodeF f c (p + ks.length) = .hang
    · rw [hh]; simp only []; omega
    · have : decodeF f c (p + ks.length) = decodeF g c (p + ks.length) := by
        rw [← decodeAt_of_fuel hh, ← decodeAt_of_fuel (f := g) (by rw [hg]; simp)]
      rw [this, hg]; simp only []; omega
end

/-- A supported document is acceptable. -/
theorem lenient_doc {v : BVal} {bs : Bytes} (h : IsBencode v bs) (hr : Readable v) : Lenient (meaning v) bs := by
  obtain ⟨f, hf⟩ := decode_doc h hr bs 0 [] (by simp)
  obtain ⟨b, t, hb, -, -⟩ := isBencode_head h
  obtain ⟨bs', rest, e, e2, hl⟩ := (lenient_of_decode f).1 _ _ _ _ hf (by simp [hb])
  have : rest = [] := by
    have := congrArg List.length e
    simp at this e2
    exact List.length_eq_zero_iff.mp (by omega)
  subst this
  simp at e
  rw [e]; exact hl

theorem lenientStr_of_isStr {s bs : Bytes} (h : IsStr s bs) (hl : s.length < 2 ^ 64) : LenientStr s bs := by
  obtain ⟨ds, x, rest, e, hne, hd, hx, hv, hl', e2⟩ := parseString_ok.mp (parseString_of_isStr h hl (c := bs) (p := 0) (rest := []) (by simp))
  have : rest = [] := by
    have := congrArg List.length e
    simp at this e2
    exact List.length_eq_zero_iff.mp (by omega)
  subst this
  simp at e
  rw [e]; exact .mk hne hd hx hv hl'

mutual
/-- A document nested deeply is a deeply nested input. -/
theorem deep_doc {v : BVal} {bs : Bytes} (h : IsBencode v bs) (hr : Readable v) (rest : Bytes) {n : Nat} (hn : n ≤ nesting v) :
    Deep n (bs ++ rest) := by
  by_cases h1 : n ≤ 1
  · exact .here h1
  obtain ⟨m, rfl⟩ : ∃ m, n = m + 1 := ⟨n - 1, by omega⟩
  match h with
  | .int _ => simp only [nesting] at hn; omega
  | .str _ => simp only [nesting] at hn; omega
  | .list (bs := bs) hl =>
    simp only [nesting] at hn
    simpa using Deep.list (deep_elems hl hr (101 :: rest) (n := m) (by omega) (by omega))
  | .dict (bs := bs) hd =>
    simp only [nesting] at hn
    simpa using Deep.dict (deep_entries hd hr (101 :: rest) (n := m) (by omega) (by omega))
theorem deep_elems {l : List BVal} {bs : Bytes} (h : IsElems l bs) (hr : ReadableElems l) (rest : Bytes) {n : Nat} (h0 : 0 < n)
    (hn : n ≤ nestingElems l) : DeepElems n (bs ++ rest) := by
  match h with
  | .nil => simp only [nestingElems] at hn; omega
  | .cons (v := v) (bs := bs) (bs' := bs') hv hl =>
    simp only [nestingElems] at hn
    rw [List.append_assoc]
    by_cases h1 : n ≤ nesting v
    · have := deep_doc hv hr.1 (bs' ++ rest) h1
      obtain ⟨b, t, hb, hne, -⟩ := isBencode_head hv
      subst hb
      exact .inner hne this
    · exact .next (lenient_doc hv hr.1) (deep_elems hl hr.2 rest h0 (by omega))
theorem deep_entries {d : List (Bytes × BVal)} {bs : Bytes} (h : IsEntries d bs) (hr : ReadableEntries d) (rest : Bytes) {n : Nat} (h0 : 0 < n)
    (hn : n ≤ nestingEntries d) : DeepEntries n (bs ++ rest) := by
  match h with
  | .nil => simp only [nestingEntries] at hn; omega
  | .cons (k := k) (v := v) (ks := ks) (bs := bs) (bs' := bs') hk hv hd =>
    obtain ⟨hu, hkl, hrv, hrd⟩ := hr
    have hks := lenientStr_of_isStr hk hkl
    simp only [nestingEntries] at hn
    rw [List.append_assoc]
    by_cases h1 : n ≤ nesting v
    · rw [List.append_assoc]
      exact .inner hks hu (deep_doc hv hrv (bs' ++ rest) h1)
    · exact .next hks hu (lenient_doc hv hrv) (deep_entries hd hrd rest h0 (by omega))
end

theorem nest_isBencode (n : Nat) : IsBencode (nest n) (nestDoc n) := by
  induction n with
  | zero => exact .list .nil
  | succ n ih =>
    have h : nestDoc (n + 1) = 108 :: (nestDoc n ++ []) ++ [101] := by
      simp only [nestDoc, List.append_nil]
      rw [List.replicate_succ (n := n + 1), List.replicate_succ' (n := n + 1)]
      simp
    rw [h]
    exact .list (.cons ih .nil)

theorem nest_readable (n : Nat) : Readable (nest n) ∧ DistinctKeys (nest n) ∧ (nest n).Canonical ∧ nesting (nest n) = n + 1 := by
  induction n with
  | zero => exact ⟨trivial, trivial, trivial, rfl⟩
  | succ n ih =>
    obtain ⟨h1, h2, h3, h4⟩ := ih
    exact ⟨⟨h1, trivial⟩, ⟨h2, trivial⟩, ⟨h3, trivial⟩, by simp [nest, nesting, nestingElems, h4]⟩

end RustBit
