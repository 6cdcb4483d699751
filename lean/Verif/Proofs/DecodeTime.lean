/-
How long the decoder takes: no longer than four steps for every byte, unless it is stuck; ever longer if it is.
-/
import Verif.Model.DecodeTime
import Verif.Proofs.Memory
import Verif.Spec.DecodeTime

namespace RustBit
open Spec Decoder

theorem digitsTime_ok {c : Bytes} {p n q : Nat} (h : getConsecutiveDigits c p = .ok (n, q)) : digitsTime c p = 3 * (q - p) + 1 ∧ p < q ∧ q < c.length := by
  obtain ⟨ds, x, t, e, hne, hd, hx, -, -, rfl⟩ := getConsecutiveDigits_ok.mp h
  have hk : countDigits (c.drop p) = some ds.length := by
    rw [e]
    clear h hne e
    induction ds with
    | nil => simp [countDigits, hx]
    | cons a ds ih =>
      rw [List.cons_append, countDigits, if_pos (hd a (by simp)), ih (fun d h => hd d (by simp [h]))]
      rfl
  have hl := congrArg List.length e
  simp only [List.length_drop, List.length_append, List.length_cons] at hl
  have := List.length_pos_iff.mpr hne
  refine ⟨?_, by omega, by omega⟩
  unfold digitsTime
  rw [hk, h]
  simp

theorem digitsTime_le (c : Bytes) (p : Nat) : digitsTime c p ≤ 4 * (c.length - p) := by
  unfold digitsTime
  cases hk : countDigits (c.drop p) with
  | none => simp only []; omega
  | some k =>
    obtain ⟨x, t, e, -, -, hl⟩ := countDigits_some hk
    simp only [List.length_drop] at hl
    simp only []
    split <;> omega

theorem stringTime_ok {c : Bytes} {p q : Nat} {s : Bytes} (h : parseString c p = .ok (s, q)) :
    ∃ k, 0 < k ∧ stringTime c p = 3 * k + 1 + s.length ∧ q = p + k + 1 + s.length ∧ q ≤ c.length := by
  have hb := parseString_bounds h
  have hp := h
  unfold parseString at h
  cases hg : getConsecutiveDigits c p with
  | ok a =>
    obtain ⟨n, q1⟩ := a
    rw [hg] at h
    simp only [Res.bind_ok] at h
    obtain ⟨h1, h2, -⟩ := digitsTime_ok hg
    unfold slice at h
    split at h
    · simp only [Res.bind_ok, Res.ok.injEq, Prod.mk.injEq] at h
      obtain ⟨h3, h4⟩ := h
      have hl := congrArg List.length h3
      simp only [List.length_drop, List.length_take] at hl
      refine ⟨q1 - p, by omega, ?_, by omega, hb.2⟩
      unfold stringTime
      rw [h1, hp]
    · cases h
  | err e => rw [hg] at h; cases h
  | panic => rw [hg] at h; cases h
  | hang => rw [hg] at h; cases h

theorem stringTime_fail {c : Bytes} {p : Nat} (h : ∀ s q, parseString c p ≠ .ok (s, q)) : stringTime c p ≤ 4 * (c.length - p) := by
  have := digitsTime_le c p
  unfold stringTime
  cases hp : parseString c p with
  | ok a => exact absurd hp (h a.1 a.2)
  | _ => simpa using this

/-- What has been read was read with at least one step and at most four for every byte. -/
theorem time_ok (f : Nat) :
    (∀ c p v q, decodeF f c p = .ok (v, q) → (timeF f c p + 1 ≤ 4 * (q - p) ∧ q ≤ p + timeF f c p) ∨ (q = p ∧ timeF f c p = 1)) ∧
    (∀ c p acc v q, listLoop f c p acc = .ok (v, q) → listTime f c p ≤ 4 * (q - p) ∧ q ≤ p + listTime f c p) ∧
    (∀ c p acc v q, dictLoop f c p acc = .ok (v, q) → dictTime f c p ≤ 4 * (q - p) ∧ q ≤ p + dictTime f c p) := by
  induction f with
  | zero => refine ⟨?_, ?_, ?_⟩ <;> intros <;> simp_all [decodeF, listLoop, dictLoop]
  | succ f ih =>
    obtain ⟨ih1, ih2, ih3⟩ := ih
    refine ⟨?_, ?_, ?_⟩
    · intro c p v q h
      rw [decodeF] at h
      rw [timeF]
      cases hb : c[p]? with
      | none =>
        simp only [hb, Res.ok.injEq, Prod.mk.injEq] at h
        exact .inr ⟨h.2.symm, rfl⟩
      | some b =>
        simp only [hb] at h ⊢
        split at h
        · rename_i hi
          rw [if_pos hi]
          obtain ⟨n, q1, hg, rfl, rfl⟩ := parseInteger_ok.mp h
          have := digitsTime_ok hg
          left
          omega
        · rename_i hi
          rw [if_neg hi]
          split at h
          · rename_i hl
            rw [if_pos hl]
            have := ih2 _ _ _ _ _ h
            have := (progress f).2.1 _ _ _ _ _ h
            left
            omega
          · rename_i hl
            rw [if_neg hl]
            split at h
            · rename_i hd
              rw [if_pos hd]
              have := ih3 _ _ _ _ _ h
              have := (progress f).2.2 _ _ _ _ _ h
              left
              omega
            · rename_i hd
              rw [if_neg hd]
              split at h
              · rename_i hs0
                rw [if_pos hs0]
                cases hs : parseString c p with
                | ok a =>
                  obtain ⟨s, p1⟩ := a
                  rw [hs] at h
                  simp only [Res.bind_ok, Res.ok.injEq, Prod.mk.injEq] at h
                  obtain ⟨rfl, rfl⟩ := h
                  obtain ⟨k, h1, h2, h3, -⟩ := stringTime_ok hs
                  left
                  omega
                | err e => rw [hs] at h; cases h
                | panic => rw [hs] at h; cases h
                | hang => rw [hs] at h; cases h
              · rename_i hs0
                rw [if_neg hs0]
                simp only [Res.ok.injEq, Prod.mk.injEq] at h
                exact .inr ⟨h.2.symm, rfl⟩
    · intro c p acc v q h
      have hpr := (progress (f + 1)).2.1 _ _ _ _ _ h
      rw [listLoop] at h
      rw [listTime]
      cases hb : c[p]? with
      | none => simp [hb] at h
      | some b =>
        simp only [hb] at h ⊢
        split at h
        · rename_i he
          rw [if_pos he]
          simp only [Res.ok.injEq, Prod.mk.injEq] at h
          omega
        · rename_i hbe
          rw [if_neg hbe]
          cases hd : decodeF f c p with
          | ok a =>
            obtain ⟨w, p1⟩ := a
            rw [hd] at h
            simp only [Res.bind_ok] at h ⊢
            have h2 := ih2 _ _ _ _ _ h
            have h3 := (progress f).2.1 _ _ _ _ _ h
            rcases ih1 _ _ _ _ hd with h1 | ⟨rfl, -⟩
            · omega
            · rw [listLoop_stuck (((progress f).1 _ _ _ _ hd).2.2 rfl).2 ⟨b, hb, hbe⟩] at h
              cases h
          | err e => rw [hd] at h; cases h
          | panic => rw [hd] at h; cases h
          | hang => rw [hd] at h; cases h
    · intro c p acc v q h
      have hpr := (progress (f + 1)).2.2 _ _ _ _ _ h
      rw [dictLoop] at h
      rw [dictTime]
      cases hb : c[p]? with
      | none => simp [hb] at h
      | some b =>
        simp only [hb] at h ⊢
        split at h
        · rename_i he
          rw [if_pos he]
          simp only [Res.ok.injEq, Prod.mk.injEq] at h
          omega
        · rename_i hbe
          rw [if_neg hbe]
          cases hs : parseString c p with
          | ok a =>
            obtain ⟨k, p1⟩ := a
            rw [hs] at h
            simp only [Res.bind_ok] at h ⊢
            obtain ⟨n, h1, h2, h3, -⟩ := stringTime_ok hs
            split at h
            · rename_i hu
              rw [if_pos hu]
              cases hd : decodeF f c p1 with
              | ok a =>
                obtain ⟨w, p2⟩ := a
                rw [hd] at h
                simp only [Res.bind_ok] at h ⊢
                have h4 := ih3 _ _ _ _ _ h
                have h5 := (progress f).2.2 _ _ _ _ _ h
                have h6 := (progress f).1 _ _ _ _ hd
                rcases ih1 _ _ _ _ hd with h7 | ⟨rfl, h7⟩ <;> omega
              | err e => rw [hd] at h; cases h
              | panic => rw [hd] at h; cases h
              | hang => rw [hd] at h; cases h
            · cases h
          | err e => rw [hs] at h; cases h
          | panic => rw [hs] at h; cases h
          | hang => rw [hs] at h; cases h

/-- Unless it never returns, the decoder takes no more than four steps for every byte, and two. -/
theorem time_le (f : Nat) :
    (∀ c p, p ≤ c.length → timeF f c p ≤ 4 * (c.length - p) + 2 ∨ ∀ g, decodeF g c p = .hang) ∧
    (∀ c p, p ≤ c.length → listTime f c p ≤ 4 * (c.length - p) + 3 ∨ ∀ g acc, listLoop g c p acc = .hang) ∧
    (∀ c p, p ≤ c.length → dictTime f c p ≤ 4 * (c.length - p) + 3 ∨ ∀ g acc, dictLoop g c p acc = .hang) := by
  induction f with
  | zero => exact ⟨fun c p _ => by rw [timeF]; omega, fun c p _ => by rw [listTime]; omega, fun c p _ => by rw [dictTime]; omega⟩
  | succ f ih =>
    obtain ⟨ih1, ih2, ih3⟩ := ih
    refine ⟨fun c p hp => ?_, fun c p hp => ?_, fun c p hp => ?_⟩
    · rw [timeF]
      cases hb : c[p]? with
      | none => simp only []; omega
      | some b =>
        have hlt : p < c.length := (List.getElem?_eq_some_iff.mp hb).1
        simp only []
        by_cases e1 : b = 105
        · have := digitsTime_le c (p + 1)
          simp only [e1, if_true]; omega
        simp only [e1, if_false]
        by_cases e2 : b = 108
        · simp only [e2, if_true]
          rcases ih2 c (p + 1) hlt with h | h
          · left; omega
          · right
            intro g
            cases g with
            | zero => rw [decodeF]
            | succ g =>
              rw [decodeF, hb]
              simp only [e2, if_true]
              exact h g _
        simp only [e2, if_false]
        by_cases e3 : b = 100
        · simp only [e3, if_true]
          rcases ih3 c (p + 1) hlt with h | h
          · left; omega
          · right
            intro g
            cases g with
            | zero => rw [decodeF]
            | succ g =>
              rw [decodeF, hb]
              simp only [e3, if_true]
              exact h g _
        simp only [e3, if_false]
        split
        · cases hs : parseString c p with
          | ok a =>
            obtain ⟨k, h1, h2, h3, h4⟩ := stringTime_ok hs
            omega
          | err e => have := stringTime_fail (c := c) (p := p) (by rw [hs]; simp); omega
          | panic => have := stringTime_fail (c := c) (p := p) (by rw [hs]; simp); omega
          | hang => have := stringTime_fail (c := c) (p := p) (by rw [hs]; simp); omega
        · omega
    · rw [listTime]
      cases hb : c[p]? with
      | none => simp only []; omega
      | some b =>
        have hlt : p < c.length := (List.getElem?_eq_some_iff.mp hb).1
        simp only []
        split
        · omega
        · rename_i hbe
          have loop : ∀ g acc, listLoop (g + 1) c p acc = (decodeF g c p >>= fun (x : Metainfo × Nat) => listLoop g c x.2 (acc ++ [x.1])) := by
            intro g acc
            rw [listLoop, hb]
            simp only [hbe, if_false]
          rcases ih1 c p hp with h1 | h1
          · cases hd : decodeF f c p with
            | ok a =>
              obtain ⟨w, p1⟩ := a
              obtain ⟨hq1, hq2, hq3⟩ := (progress f).1 _ _ _ _ hd
              simp only []
              rcases (time_ok f).1 _ _ _ _ hd with hu | ⟨rfl, -⟩
              · rcases ih2 c p1 (hq2 hp) with h2 | h2
                · left
                  have := hq2 hp
                  omega
                · right
                  intro g acc
                  cases g with
                  | zero => rw [listLoop]
                  | succ g =>
                    rw [loop]
                    by_cases hg : decodeF g c p = .hang
                    · rw [hg]; rfl
                    · have : decodeF g c p = .ok (w, p1) := by
                        rw [← decodeF_mono (Nat.le_max_left g f) hg, decodeF_mono (Nat.le_max_right g f) (by rw [hd]; simp), hd]
                      rw [this]
                      exact h2 g _
              · right
                exact fun g acc => listLoop_stuck (hq3 rfl).2 ⟨b, hb, hbe⟩ g acc
            | err e => simp only []; omega
            | panic => simp only []; omega
            | hang => simp only []; omega
          · right
            intro g acc
            cases g with
            | zero => rw [listLoop]
            | succ g => rw [loop, h1 g]; rfl
    · rw [dictTime]
      cases hb : c[p]? with
      | none => simp only []; omega
      | some b =>
        have hlt : p < c.length := (List.getElem?_eq_some_iff.mp hb).1
        simp only []
        by_cases hbe : b = 101
        · simp only [hbe, if_true]; omega
        simp only [hbe, if_false]
        cases hs : parseString c p with
        | ok a =>
          obtain ⟨k, p1⟩ := a
          obtain ⟨n, k1, k2, k3, k4⟩ := stringTime_ok hs
          simp only []
          by_cases hu : validUtf8 k = true
          · simp only [hu, if_true]
            have loop : ∀ g acc, dictLoop (g + 1) c p acc = (decodeF g c p1 >>= fun (x : Metainfo × Nat) => dictLoop g c x.2 (mapInsert acc k x.1)) := by
              intro g acc
              rw [dictLoop, hb]
              simp only [hbe, if_false, hs, Res.bind_ok, hu, if_true]
            rcases ih1 c p1 k4 with h1 | h1
            · cases hd : decodeF f c p1 with
              | ok a =>
                obtain ⟨w, p2⟩ := a
                obtain ⟨hq1, hq2, hq3⟩ := (progress f).1 _ _ _ _ hd
                simp only []
                have hl2 := hq2 k4
                rcases ih3 c p2 hl2 with h2 | h2
                · left
                  rcases (time_ok f).1 _ _ _ _ hd with hu2 | ⟨rfl, hu2⟩ <;> omega
                · right
                  intro g acc
                  cases g with
                  | zero => rw [dictLoop]
                  | succ g =>
                    rw [loop]
                    by_cases hg : decodeF g c p1 = .hang
                    · rw [hg]; rfl
                    · have : decodeF g c p1 = .ok (w, p2) := by
                        rw [← decodeF_mono (Nat.le_max_left g f) hg, decodeF_mono (Nat.le_max_right g f) (by rw [hd]; simp), hd]
                      rw [this]
                      exact h2 g _
              | err e => simp only []; omega
              | panic => simp only []; omega
              | hang => simp only []; omega
            · right
              intro g acc
              cases g with
              | zero => rw [dictLoop]
              | succ g => rw [loop, h1 g]; rfl
          · simp only [hu]; left; simp; omega
        | err e => have := stringTime_fail (c := c) (p := p) (by rw [hs]; simp); simp only []; omega
        | panic => have := stringTime_fail (c := c) (p := p) (by rw [hs]; simp); simp only []; omega
        | hang => have := stringTime_fail (c := c) (p := p) (by rw [hs]; simp); simp only []; omega

/-- A decoder that has used up its fuel has taken as many steps. -/
theorem time_hang (f : Nat) :
    (∀ c p, decodeF f c p = .hang → f ≤ timeF f c p) ∧
    (∀ c p acc, listLoop f c p acc = .hang → f ≤ listTime f c p) ∧
    (∀ c p acc, dictLoop f c p acc = .hang → f ≤ dictTime f c p) := by
  induction f with
  | zero => refine ⟨?_, ?_, ?_⟩ <;> intros <;> omega
  | succ f ih =>
    obtain ⟨ih1, ih2, ih3⟩ := ih
    refine ⟨fun c p h => ?_, fun c p acc h => ?_, fun c p acc h => ?_⟩
    · rw [decodeF] at h
      rw [timeF]
      cases hb : c[p]? with
      | none => simp [hb] at h
      | some b =>
        simp only [hb] at h ⊢
        split at h
        · exact absurd h (parseInteger_ne_hang _ _)
        · rename_i hi
          rw [if_neg hi]
          split at h
          · rename_i hl
            rw [if_pos hl]
            have := ih2 _ _ _ h
            omega
          · rename_i hl
            rw [if_neg hl]
            split at h
            · rename_i hd
              rw [if_pos hd]
              have := ih3 _ _ _ h
              omega
            · split at h
              · cases hs : parseString c p with
                | ok a => rw [hs] at h; cases h
                | err e => rw [hs] at h; cases h
                | panic => rw [hs] at h; cases h
                | hang => exact absurd hs (parseString_ne_hang _ _)
              · cases h
    · rw [listLoop] at h
      rw [listTime]
      cases hb : c[p]? with
      | none => simp [hb] at h
      | some b =>
        simp only [hb] at h ⊢
        split at h
        · cases h
        · rename_i hbe
          rw [if_neg hbe]
          cases hd : decodeF f c p with
          | ok a =>
            rw [hd] at h
            simp only [Res.bind_ok] at h ⊢
            have := ih2 _ _ _ h
            omega
          | err e => rw [hd] at h; cases h
          | panic => rw [hd] at h; cases h
          | hang => have := ih1 _ _ hd; simp only []; omega
    · rw [dictLoop] at h
      rw [dictTime]
      cases hb : c[p]? with
      | none => simp [hb] at h
      | some b =>
        simp only [hb] at h ⊢
        split at h
        · cases h
        · rename_i hbe
          rw [if_neg hbe]
          cases hs : parseString c p with
          | ok a =>
            rw [hs] at h
            simp only [Res.bind_ok] at h ⊢
            split at h
            · rename_i hu
              rw [if_pos hu]
              cases hd : decodeF f c a.2 with
              | ok a =>
                rw [hd] at h
                simp only [Res.bind_ok] at h ⊢
                have := ih3 _ _ _ h
                omega
              | err e => rw [hd] at h; cases h
              | panic => rw [hd] at h; cases h
              | hang => have := ih1 _ _ hd; simp only []; omega
            · cases h
          | err e => rw [hs] at h; cases h
          | panic => rw [hs] at h; cases h
          | hang => exact absurd hs (parseString_ne_hang _ _)

theorem time_mono_step (f : Nat) :
    (∀ c p, timeF f c p ≤ timeF (f + 1) c p) ∧ (∀ c p, listTime f c p ≤ listTime (f + 1) c p) ∧
    (∀ c p, dictTime f c p ≤ dictTime (f + 1) c p) := by
  induction f with
  | zero => exact ⟨fun c p => by rw [timeF]; omega, fun c p => by rw [listTime]; omega, fun c p => by rw [dictTime]; omega⟩
  | succ f ih =>
    obtain ⟨ih1, ih2, ih3⟩ := ih
    refine ⟨fun c p => ?_, fun c p => ?_, fun c p => ?_⟩
    · rw [timeF, timeF]
      cases c[p]? with
      | none => simp
      | some b =>
        have h2 := ih2 c (p + 1)
        have h3 := ih3 c (p + 1)
        simp only []
        split
        · exact Nat.le_refl _
        · split
          · omega
          · split
            · omega
            · exact Nat.le_refl _
    · rw [listTime, listTime]
      cases c[p]? with
      | none => simp
      | some b =>
        simp only []
        split
        · omega
        · have h1 := ih1 c p
          cases hd : decodeF f c p with
          | ok a =>
            obtain ⟨v, p1⟩ := a
            rw [(mono f).1 c p (by rw [hd]; simp), hd]
            have h2 := ih2 c p1
            simp only []
            omega
          | err e => simp only []; omega
          | panic => simp only []; omega
          | hang => simp only []; omega
    · rw [dictTime, dictTime]
      cases c[p]? with
      | none => simp
      | some b =>
        simp only []
        split
        · omega
        · cases hs : parseString c p with
          | ok a =>
            obtain ⟨k, p1⟩ := a
            simp only []
            split
            · have h1 := ih1 c p1
              cases hd : decodeF f c p1 with
              | ok a =>
                obtain ⟨v, p2⟩ := a
                rw [(mono f).1 c p1 (by rw [hd]; simp), hd]
                have h2 := ih3 c p2
                simp only []
                omega
              | err e => simp only []; omega
              | panic => simp only []; omega
              | hang => simp only []; omega
            · omega
          | err e => simp only []; omega
          | panic => simp only []; omega
          | hang => simp only []; omega

theorem timeF_mono {f g : Nat} (h : f ≤ g) (c : Bytes) (p : Nat) : timeF f c p ≤ timeF g c p := by
  induction h with
  | refl => exact Nat.le_refl _
  | step _ ih => exact Nat.le_trans ih ((time_mono_step _).1 c p)

/-- More fuel than needed makes no difference. -/
theorem time_stable_step (f : Nat) :
    (∀ c p, decodeF f c p ≠ .hang → timeF (f + 1) c p = timeF f c p) ∧
    (∀ c p acc, listLoop f c p acc ≠ .hang → listTime (f + 1) c p = listTime f c p) ∧
    (∀ c p acc, dictLoop f c p acc ≠ .hang → dictTime (f + 1) c p = dictTime f c p) := by
  induction f with
  | zero => refine ⟨?_, ?_, ?_⟩ <;> intros <;> simp_all [decodeF, listLoop, dictLoop]
  | succ f ih =>
    obtain ⟨ih1, ih2, ih3⟩ := ih
    refine ⟨fun c p h => ?_, fun c p acc h => ?_, fun c p acc h => ?_⟩
    · rw [decodeF] at h
      rw [timeF, timeF]
      cases hb : c[p]? with
      | none => rfl
      | some b =>
        simp only [hb] at h ⊢
        by_cases e1 : b = 105
        · simp only [e1, if_true]
        simp only [e1, if_false] at h ⊢
        by_cases e2 : b = 108
        · simp only [e2, if_true] at h ⊢
          rw [ih2 _ _ _ h]
        simp only [e2, if_false] at h ⊢
        by_cases e3 : b = 100
        · simp only [e3, if_true] at h ⊢
          rw [ih3 _ _ _ h]
        simp only [e3, if_false]
    · rw [listLoop] at h
      rw [listTime, listTime]
      cases hb : c[p]? with
      | none => rfl
      | some b =>
        simp only [hb] at h ⊢
        by_cases e1 : b = 101
        · simp only [e1, if_true]
        simp only [e1, if_false] at h ⊢
        have hh : decodeF f c p ≠ .hang := by rintro e; rw [e] at h; exact h rfl
        rw [ih1 _ _ hh, (mono f).1 c p hh]
        cases hd : decodeF f c p with
        | ok a =>
          rw [hd] at h
          simp only []
          rw [ih2 _ _ _ h]
        | err e => rfl
        | panic => rfl
        | hang => exact absurd hd hh
    · rw [dictLoop] at h
      rw [dictTime, dictTime]
      cases hb : c[p]? with
      | none => rfl
      | some b =>
        simp only [hb] at h ⊢
        by_cases e1 : b = 101
        · simp only [e1, if_true]
        simp only [e1, if_false] at h ⊢
        cases hs : parseString c p with
        | ok a =>
          obtain ⟨k, p1⟩ := a
          rw [hs] at h
          simp only [Res.bind_ok] at h ⊢
          by_cases hu : validUtf8 k = true
          · simp only [hu, if_true] at h ⊢
            have hh : decodeF f c p1 ≠ .hang := by rintro e; rw [e] at h; exact h rfl
            rw [ih1 _ _ hh, (mono f).1 c p1 hh]
            cases hd : decodeF f c p1 with
            | ok a =>
              rw [hd] at h
              simp only []
              rw [ih3 _ _ _ h]
            | err e => rfl
            | panic => rfl
            | hang => exact absurd hd hh
          · simp only [hu]; rfl
        | err e => rfl
        | panic => rfl
        | hang => exact absurd hs (parseString_ne_hang _ _)

theorem timeF_stable {f g : Nat} {c : Bytes} {p : Nat} (h : f ≤ g) (hf : decodeF f c p ≠ .hang) : timeF g c p = timeF f c p := by
  induction h with
  | refl => rfl
  | step h' ih => rw [(time_stable_step _).1 _ _ (by rw [decodeF_mono h' hf]; exact hf), ih]

theorem listTime_stable {f g : Nat} {c : Bytes} {p : Nat} {acc} (h : f ≤ g) (hf : listLoop f c p acc ≠ .hang) : listTime g c p = listTime f c p := by
  induction h with
  | refl => rfl
  | step h' ih => rw [(time_stable_step _).2.1 _ _ acc (by rw [listLoop_mono h' hf]; exact hf), ih]

theorem dictTime_stable {f g : Nat} {c : Bytes} {p : Nat} {acc} (h : f ≤ g) (hf : dictLoop f c p acc ≠ .hang) : dictTime g c p = dictTime f c p := by
  induction h with
  | refl => rfl
  | step h' ih => rw [(time_stable_step _).2.2 _ _ acc (by rw [dictLoop_mono h' hf]; exact hf), ih]

theorem digitsRev_width (f n : Nat) (h : n < f) : (digitsRev f n).length = width n := by
  induction f generalizing n with
  | zero => omega
  | succ f ih =>
    rw [digitsRev, width]
    by_cases h0 : n / 10 = 0
    · rw [if_pos h0, if_pos (by omega)]; rfl
    · rw [if_neg h0, if_neg (by omega), List.length_cons, ih _ (by omega)]

theorem width_of_isDecimal {n : Nat} {ds : Bytes} (h : IsDecimal n ds) : ds.length = width n := by
  rw [isDecimal_unique h (isDecimal_decimal n), decimal, List.length_reverse, digitsRev_width _ _ (by omega)]

theorem stringTime_of_isStr {s bs c rest : Bytes} {p : Nat} (h : IsStr s bs) (hl : s.length < 2 ^ 64) (e : c.drop p = bs ++ rest) :
    stringTime c p = 3 * width s.length + 1 + s.length := by
  obtain ⟨k, -, h1, h2, -⟩ := stringTime_ok (parseString_of_isStr h hl e)
  obtain ⟨ds, hd, rfl⟩ := h
  have := width_of_isDecimal hd
  simp only [List.length_append, List.length_cons] at h2
  rw [h1]
  omega

mutual
theorem time_doc {v : BVal} {bs : Bytes} (h : IsBencode v bs) (hr : Readable v) (c : Bytes) (p : Nat) (rest : Bytes) (e : c.drop p = bs ++ rest) :
    ∃ f, decodeF f c p = .ok (meaning v, p + bs.length) ∧ timeF f c p = steps v := by
  obtain ⟨f0, h0⟩ := decode_doc h hr c p rest e
  match h with
  | .int (i := i) (bs := bs) hi =>
    refine ⟨f0, h0, ?_⟩
    obtain ⟨f, rfl⟩ : ∃ f, f0 = f + 1 := ⟨f0 - 1, by cases f0 with | zero => simp [decodeF] at h0 | succ n => rfl⟩
    have hb := getElem?_of_drop (c := c) (p := p) (b := 105) (t := bs ++ [101] ++ rest) (by simpa using e)
    rw [decodeF, hb] at h0
    simp only [if_true] at h0
    obtain ⟨n, q1, hg, -, h1⟩ := parseInteger_ok.mp h0
    have h2 := digitsTime_ok hg
    rw [timeF, hb]
    simp only [if_true]
    simp only [List.length_append, List.length_cons, List.length_nil] at h1
    have hw : bs.length = width i.toNat := by
      cases hi with
      | nonneg hd => exact width_of_isDecimal hd
      | neg hn hd => have := hr.1; omega
    rw [h2.1, steps]
    omega
  | .str (s := s) (bs := bs) hs =>
    refine ⟨f0, h0, ?_⟩
    obtain ⟨f, rfl⟩ : ∃ f, f0 = f + 1 := ⟨f0 - 1, by cases f0 with | zero => simp [decodeF] at h0 | succ n => rfl⟩
    have ht := stringTime_of_isStr hs hr.2 e
    have hs' := hs
    obtain ⟨ds, hd, rfl⟩ := hs
    obtain ⟨d, t, rfl⟩ := List.exists_cons_of_ne_nil hd.nonempty
    have hb : c[p]? = some d := getElem?_of_drop (by rw [e]; rfl)
    have hg := hd.digits d (by simp)
    have h1 : d ≠ 105 := by rintro rfl; simp at hg
    have h2 : d ≠ 108 := by rintro rfl; simp at hg
    have h3 : d ≠ 100 := by rintro rfl; simp at hg
    rw [decodeF, hb] at h0
    simp only [h1, h2, h3, if_false] at h0
    rw [timeF, hb]
    simp only [h1, h2, h3, if_false]
    split
    · rw [ht, steps]; omega
    · rename_i h4
      rw [if_neg h4] at h0
      simp [meaning] at h0
  | .list (l := l) (bs := bs) hl =>
    have e1 : c.drop (p + 1) = bs ++ 101 :: rest := drop_succ (by simpa using e)
    obtain ⟨f, hf, ht⟩ := time_elems hl hr c (p + 1) [] rest e1
    have hb := getElem?_of_drop (c := c) (p := p) (b := 108) (t := bs ++ [101] ++ rest) (by simpa using e)
    have hd : decodeF (f + 1) c p = .ok (meaning (.list l), p + (108 :: bs ++ [101]).length) := by
      rw [decodeF, hb]
      simp only [show (108 : UInt8) ≠ 105 by decide, if_false, if_true]
      rw [hf]
      simp [meaning]
      omega
    refine ⟨f + 1, hd, ?_⟩
    rw [timeF, hb]
    simp only [show (108 : UInt8) ≠ 105 by decide, if_false, if_true]
    rw [ht, steps]
    omega
  | .dict (d := d) (bs := bs) hd =>
    have e1 : c.drop (p + 1) = bs ++ 101 :: rest := drop_succ (by simpa using e)
    obtain ⟨f, hf, ht⟩ := time_entries hd hr c (p + 1) [] rest e1
    have hb := getElem?_of_drop (c := c) (p := p) (b := 100) (t := bs ++ [101] ++ rest) (by simpa using e)
    refine ⟨f + 1, ?_, ?_⟩
    · rw [decodeF, hb]
      simp only [show (100 : UInt8) ≠ 105 by decide, show (100 : UInt8) ≠ 108 by decide, if_false, if_true]
      rw [hf]
      simp [meaning]
      omega
    · rw [timeF, hb]
      simp only [show (100 : UInt8) ≠ 105 by decide, show (100 : UInt8) ≠ 108 by decide, if_false, if_true]
      rw [ht, steps]
      omega

theorem time_elems {l : List BVal} {bs : Bytes} (h : IsElems l bs) (hr : ReadableElems l)
    (c : Bytes) (p : Nat) (acc : List Metainfo) (rest : Bytes) (e : c.drop p = bs ++ 101 :: rest) :
    ∃ f, listLoop f c p acc = .ok (.list (acc ++ meaningElems l), p + bs.length + 1) ∧ listTime f c p = stepsElems l + 1 := by
  match h with
  | .nil =>
    have hb := getElem?_of_drop (c := c) (p := p) (b := 101) (t := rest) (by simpa using e)
    refine ⟨1, ?_, ?_⟩
    · rw [listLoop, hb]
      simp [meaningElems]
    · rw [listTime, hb]
      simp [stepsElems]
  | .cons (v := v) (l := l) (bs := bs) (bs' := bs') hv hl =>
    have e0 : c.drop p = bs ++ (bs' ++ 101 :: rest) := by simpa using e
    obtain ⟨f1, h1, t1⟩ := time_doc hv hr.1 c p _ e0
    obtain ⟨f2, h2, t2⟩ := time_elems hl hr.2 c (p + bs.length) (acc ++ [meaning v]) rest (drop_add e0)
    obtain ⟨b, t, hb, hne, -⟩ := isBencode_head hv
    have hb' := getElem?_of_drop (c := c) (p := p) (b := b) (t := t ++ (bs' ++ 101 :: rest)) (by simp [e0, hb])
    have k1 := decodeF_mono (Nat.le_max_left f1 f2) (by rw [h1]; simp)
    have k2 := listLoop_mono (Nat.le_max_right f1 f2) (by rw [h2]; simp)
    have k3 := timeF_stable (Nat.le_max_left f1 f2) (c := c) (p := p) (by rw [h1]; simp)
    have k4 := listTime_stable (Nat.le_max_right f1 f2) (c := c) (p := p + bs.length) (acc := acc ++ [meaning v]) (by rw [h2]; simp)
    refine ⟨max f1 f2 + 1, ?_, ?_⟩
    · rw [listLoop, hb']
      simp only [hne, if_false]
      rw [k1, h1]
      simp only [Res.bind_ok]
      rw [k2, h2]
      simp [meaningElems]
      omega
    · rw [listTime, hb']
      simp only [hne, if_false]
      rw [k3, k1, h1]
      simp only [k4, t1, t2, stepsElems]
      omega

theorem time_entries {d : List (Bytes × BVal)} {bs : Bytes} (h : IsEntries d bs)
    (hr : ReadableEntries d) (c : Bytes) (p : Nat) (acc : List (Bytes × Metainfo)) (rest : Bytes)
    (e : c.drop p = bs ++ 101 :: rest) :
    ∃ f, dictLoop f c p acc = .ok (.dictionary (meaningEntries acc d), p + bs.length + 1) ∧ dictTime f c p = stepsEntries d + 1 := by
  match h with
  | .nil =>
    have hb := getElem?_of_drop (c := c) (p := p) (b := 101) (t := rest) (by simpa using e)
    refine ⟨1, ?_, ?_⟩
    · rw [dictLoop, hb]
      simp [meaningEntries]
    · rw [dictTime, hb]
      simp [stepsEntries]
  | .cons (k := k) (v := v) (d := d) (ks := ks) (bs := bs) (bs' := bs') hk hv hd =>
    obtain ⟨hu, hkl, hrv, hrd⟩ := hr
    have e0 : c.drop p = ks ++ (bs ++ (bs' ++ 101 :: rest)) := by simpa using e
    have e1 := drop_add e0
    have hps := parseString_of_isStr hk hkl e0
    obtain ⟨f1, h1, t1⟩ := time_doc hv hrv c _ _ e1
    obtain ⟨f2, h2, t2⟩ := time_entries hd hrd c _ (mapInsert acc k (meaning v)) rest (drop_add e1)
    obtain ⟨b, t, hb, -, hne⟩ := isStr_head hk
    have hb' := getElem?_of_drop (c := c) (p := p) (b := b) (t := t ++ (bs ++ (bs' ++ 101 :: rest))) (by simp [e0, hb])
    have k1 := decodeF_mono (Nat.le_max_left f1 f2) (by rw [h1]; simp)
    have k2 := dictLoop_mono (Nat.le_max_right f1 f2) (by rw [h2]; simp)
    have k3 := timeF_stable (Nat.le_max_left f1 f2) (c := c) (p := p + ks.length) (by rw [h1]; simp)
    have k4 := dictTime_stable (Nat.le_max_right f1 f2) (c := c) (p := p + ks.length + bs.length) (acc := mapInsert acc k (meaning v)) (by rw [h2]; simp)
    refine ⟨max f1 f2 + 1, ?_, ?_⟩
    · rw [dictLoop, hb']
      simp only [hne, if_false]
      rw [hps]
      simp only [Res.bind_ok, hu, if_true]
      rw [k1, h1]
      simp only [Res.bind_ok]
      rw [k2, h2]
      simp [meaningEntries]
      omega
    · rw [dictTime, hb']
      simp only [hne, if_false, hps, hu, if_true]
      rw [k3, k1, h1]
      simp only [k4, t1, t2, stepsEntries, stringTime_of_isStr hk hkl e0]
      show 1 + _ + (k.length + k.length + steps v + (k.length + (stepsEntries d + 1))) = _
      omega
end

end RustBit
