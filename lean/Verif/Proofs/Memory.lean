/-
How much the decoder holds: monotone in the fuel, bounded by the input unless it is stuck, unbounded if it is.
-/
import Verif.Model.Memory
import Verif.Proofs.Stack

namespace RustBit
open Spec Decoder

theorem unitsElems_append (l m : List Metainfo) : unitsElems (l ++ m) = unitsElems l + unitsElems m := by
  induction l with
  | nil => simp [unitsElems]
  | cons v t ih => simp only [List.cons_append, unitsElems, ih]; omega

theorem unitsEntries_mapInsert (m : List (Bytes × Metainfo)) (k : Bytes) (v : Metainfo) :
    unitsEntries (mapInsert m k v) ≤ unitsEntries m + (k.length + 1) + v.units := by
  induction m with
  | nil => simp [mapInsert, unitsEntries]
  | cons e t ih =>
    obtain ⟨k', v'⟩ := e
    rw [mapInsert]
    split
    · simp only [unitsEntries]; omega
    · simp only [unitsEntries]; omega

theorem units_pos (v : Metainfo) : 1 ≤ v.units := by cases v <;> simp only [Metainfo.units] <;> omega

/-- More fuel, more memory. -/
theorem held_mono_step (f : Nat) :
    (∀ c p, heldF f c p ≤ heldF (f + 1) c p) ∧ (∀ c p acc, listHeld f c p acc ≤ listHeld (f + 1) c p acc) ∧
    (∀ c p acc, dictHeld f c p acc ≤ dictHeld (f + 1) c p acc) := by
  induction f with
  | zero => exact ⟨fun c p => by rw [heldF]; omega, fun c p acc => by rw [listHeld]; omega, fun c p acc => by rw [dictHeld]; omega⟩
  | succ f ih =>
    obtain ⟨ih1, ih2, ih3⟩ := ih
    refine ⟨fun c p => ?_, fun c p acc => ?_, fun c p acc => ?_⟩
    · rw [heldF, heldF]
      cases c[p]? with
      | none => simp
      | some b =>
        simp only []
        split
        · exact Nat.le_refl _
        · split
          · exact ih2 _ _ _
          · split
            · exact ih3 _ _ _
            · exact Nat.le_refl _
    · rw [listHeld, listHeld]
      cases c[p]? with
      | none => simp
      | some b =>
        simp only []
        split
        · omega
        · have h1 := ih1 c p
          cases hd : decodeF f c p with
          | ok a =>
            obtain ⟨v, p1⟩ := a
            rw [(mono f).1 c p (by rw [hd]; simp), hd]
            have h2 := ih2 c p1 (acc ++ [v])
            simp only []
            omega
          | err e => simp only []; omega
          | panic => simp only []; omega
          | hang => simp only []; omega
    · rw [dictHeld, dictHeld]
      cases c[p]? with
      | none => simp
      | some b =>
        simp only []
        split
        · omega
        · cases hs : parseString c p with
          | ok a =>
            obtain ⟨k, p1⟩ := a
            simp only []
            split
            · have h1 := ih1 c p1
              cases hd : decodeF f c p1 with
              | ok a =>
                obtain ⟨v, p2⟩ := a
                rw [(mono f).1 c p1 (by rw [hd]; simp), hd]
                have h3 := ih3 c p2 (mapInsert acc k v)
                simp only []
                omega
              | err e => simp only []; omega
              | panic => simp only []; omega
              | hang => simp only []; omega
            · omega
          | err e => simp
          | panic => simp
          | hang => simp

theorem heldF_mono {f g : Nat} (h : f ≤ g) (c : Bytes) (p : Nat) : heldF f c p ≤ heldF g c p := by
  induction h with
  | refl => exact Nat.le_refl _
  | step _ ih => exact Nat.le_trans ih ((held_mono_step _).1 c p)

theorem listHeld_mono {f g : Nat} (h : f ≤ g) (c : Bytes) (p : Nat) (acc) : listHeld f c p acc ≤ listHeld g c p acc := by
  induction h with
  | refl => exact Nat.le_refl _
  | step _ ih => exact Nat.le_trans ih ((held_mono_step _).2.1 c p acc)

theorem dictHeld_mono {f g : Nat} (h : f ≤ g) (c : Bytes) (p : Nat) (acc) : dictHeld f c p acc ≤ dictHeld g c p acc := by
  induction h with
  | refl => exact Nat.le_refl _
  | step _ ih => exact Nat.le_trans ih ((held_mono_step _).2.2 c p acc)

/-- A value takes no more than the bytes it was read from. -/
theorem units_of_decode (f : Nat) :
    (∀ c p v q, decodeF f c p = .ok (v, q) → (q = p ∧ v = .nothing) ∨ p + v.units ≤ q) ∧
    (∀ c p acc v q, listLoop f c p acc = .ok (v, q) → p + v.units ≤ q + unitsElems acc) ∧
    (∀ c p acc v q, dictLoop f c p acc = .ok (v, q) → p + v.units ≤ q + unitsEntries acc) := by
  induction f with
  | zero => refine ⟨?_, ?_, ?_⟩ <;> intros <;> simp_all [decodeF, listLoop, dictLoop]
  | succ f ih =>
    obtain ⟨ih1, ih2, ih3⟩ := ih
    refine ⟨?_, ?_, ?_⟩
    · intro c p v q h
      rw [decodeF] at h
      cases hb : c[p]? with
      | none =>
        simp only [hb, Res.ok.injEq, Prod.mk.injEq] at h
        exact .inl ⟨h.2.symm, h.1.symm⟩
      | some b =>
        simp only [hb] at h
        split at h
        · have hb := parseInteger_bounds h
          obtain ⟨n, q1, -, rfl, rfl⟩ := parseInteger_ok.mp h
          right
          simp only [Metainfo.units]
          omega
        · split at h
          · have := ih2 _ _ _ _ _ h
            simp only [unitsElems] at this
            exact .inr (by omega)
          · split at h
            · have := ih3 _ _ _ _ _ h
              simp only [unitsEntries] at this
              exact .inr (by omega)
            · split at h
              · cases hs : parseString c p with
                | ok a =>
                  obtain ⟨s, p1⟩ := a
                  rw [hs] at h
                  simp only [Res.bind_ok, Res.ok.injEq, Prod.mk.injEq] at h
                  obtain ⟨rfl, rfl⟩ := h
                  obtain ⟨ds, x, rest, -, hne, -, -, -, -, rfl⟩ := parseString_ok.mp hs
                  have := List.length_pos_iff.mpr hne
                  right
                  simp only [Metainfo.units]
                  omega
                | err e => rw [hs] at h; cases h
                | panic => rw [hs] at h; cases h
                | hang => rw [hs] at h; cases h
              · simp only [Res.ok.injEq, Prod.mk.injEq] at h
                exact .inl ⟨h.2.symm, h.1.symm⟩
    · intro c p acc v q h
      rw [listLoop] at h
      cases hb : c[p]? with
      | none => simp [hb] at h
      | some b =>
        simp only [hb] at h
        split at h
        · simp only [Res.ok.injEq, Prod.mk.injEq] at h
          obtain ⟨rfl, rfl⟩ := h
          simp only [Metainfo.units]; omega
        · rename_i hbe
          cases hd : decodeF f c p with
          | ok a =>
            obtain ⟨w, p1⟩ := a
            rw [hd] at h
            simp only [Res.bind_ok] at h
            rcases ih1 _ _ _ _ hd with ⟨rfl, rfl⟩ | h1
            · rw [listLoop_stuck (((progress f).1 _ _ _ _ hd).2.2 rfl).2 ⟨b, hb, hbe⟩] at h
              cases h
            · have h2 := ih2 _ _ _ _ _ h
              rw [unitsElems_append] at h2
              simp only [unitsElems] at h2
              omega
          | err e => rw [hd] at h; cases h
          | panic => rw [hd] at h; cases h
          | hang => rw [hd] at h; cases h
    · intro c p acc v q h
      rw [dictLoop] at h
      cases hb : c[p]? with
      | none => simp [hb] at h
      | some b =>
        simp only [hb] at h
        split at h
        · simp only [Res.ok.injEq, Prod.mk.injEq] at h
          obtain ⟨rfl, rfl⟩ := h
          simp only [Metainfo.units]; omega
        · cases hs : parseString c p with
          | ok a =>
            obtain ⟨k, p1⟩ := a
            rw [hs] at h
            simp only [Res.bind_ok] at h
            obtain ⟨ds, x, rest, -, hne, -, -, -, -, rfl⟩ := parseString_ok.mp hs
            have hp := List.length_pos_iff.mpr hne
            split at h
            · cases hd : decodeF f c (p + ds.length + 1 + k.length) with
              | ok a =>
                obtain ⟨w, p2⟩ := a
                rw [hd] at h
                simp only [Res.bind_ok] at h
                have h2 := ih3 _ _ _ _ _ h
                have h3 := unitsEntries_mapInsert acc k w
                rcases ih1 _ _ _ _ hd with ⟨rfl, rfl⟩ | h1
                · simp only [Metainfo.units] at h3; omega
                · omega
              | err e => rw [hd] at h; cases h
              | panic => rw [hd] at h; cases h
              | hang => rw [hd] at h; cases h
            · cases h
          | err e => rw [hs] at h; cases h
          | panic => rw [hs] at h; cases h
          | hang => rw [hs] at h; cases h

/-- Unless it never returns, the decoder holds no more than it has read and has yet to read. -/
theorem held_le (f : Nat) :
    (∀ c p, p ≤ c.length → heldF f c p ≤ max 1 (c.length - p) ∨ ∀ g, decodeF g c p = .hang) ∧
    (∀ c p acc, p ≤ c.length → listHeld f c p acc ≤ unitsElems acc + 1 + (c.length - p) ∨ ∀ g acc, listLoop g c p acc = .hang) ∧
    (∀ c p acc, p ≤ c.length → dictHeld f c p acc ≤ unitsEntries acc + 1 + (c.length - p) ∨ ∀ g acc, dictLoop g c p acc = .hang) := by
  induction f with
  | zero => exact ⟨fun c p _ => by rw [heldF]; omega, fun c p acc _ => by rw [listHeld]; omega, fun c p acc _ => by rw [dictHeld]; omega⟩
  | succ f ih =>
    obtain ⟨ih1, ih2, ih3⟩ := ih
    refine ⟨fun c p hp => ?_, fun c p acc hp => ?_, fun c p acc hp => ?_⟩
    · rw [heldF]
      cases hb : c[p]? with
      | none => simp only []; omega
      | some b =>
        have hlt : p < c.length := (List.getElem?_eq_some_iff.mp hb).1
        simp only []
        by_cases e1 : b = 105
        · simp only [e1, if_true]; omega
        simp only [e1, if_false]
        by_cases e2 : b = 108
        · simp only [e2, if_true]
          rcases ih2 c (p + 1) [] hlt with h | h
          · left; simp only [unitsElems] at h; omega
          · right
            intro g
            cases g with
            | zero => rw [decodeF]
            | succ g =>
              rw [decodeF, hb]
              simp only [e2, if_true]
              exact h g _
        simp only [e2, if_false]
        by_cases e3 : b = 100
        · simp only [e3, if_true]
          rcases ih3 c (p + 1) [] hlt with h | h
          · left; simp only [unitsEntries] at h; omega
          · right
            intro g
            cases g with
            | zero => rw [decodeF]
            | succ g =>
              rw [decodeF, hb]
              simp only [e3, if_true]
              exact h g _
        simp only [e3, if_false]
        split
        · cases hs : parseString c p with
          | ok a =>
            obtain ⟨s, p1⟩ := a
            have hbd := parseString_bounds hs
            obtain ⟨ds, x, rest, -, hne, -, -, -, -, rfl⟩ := parseString_ok.mp hs
            have := List.length_pos_iff.mpr hne
            simp only []
            omega
          | err e => simp only []; omega
          | panic => simp only []; omega
          | hang => simp only []; omega
        · omega
    · rw [listHeld]
      cases hb : c[p]? with
      | none => simp only []; omega
      | some b =>
        have hlt : p < c.length := (List.getElem?_eq_some_iff.mp hb).1
        simp only []
        split
        · omega
        · rename_i hbe
          have loop : ∀ g acc, listLoop (g + 1) c p acc = (decodeF g c p >>= fun (x : Metainfo × Nat) => listLoop g c x.2 (acc ++ [x.1])) := by
            intro g acc
            rw [listLoop, hb]
            simp only [hbe, if_false]
          rcases ih1 c p hp with h1 | h1
          · cases hd : decodeF f c p with
            | ok a =>
              obtain ⟨w, p1⟩ := a
              obtain ⟨hq1, hq2, hq3⟩ := (progress f).1 _ _ _ _ hd
              simp only []
              rcases (units_of_decode f).1 _ _ _ _ hd with ⟨rfl, rfl⟩ | hu
              · right
                exact fun g acc => listLoop_stuck (hq3 rfl).2 ⟨b, hb, hbe⟩ g acc
              · rcases ih2 c p1 (acc ++ [w]) (hq2 hp) with h2 | h2
                · left
                  rw [unitsElems_append] at h2
                  simp only [unitsElems] at h2
                  have := hq2 hp
                  omega
                · right
                  intro g acc
                  cases g with
                  | zero => rw [listLoop]
                  | succ g =>
                    rw [loop]
                    by_cases hg : decodeF g c p = .hang
                    · rw [hg]; rfl
                    · have : decodeF g c p = .ok (w, p1) := by
                        rw [← decodeF_mono (Nat.le_max_left g f) hg, decodeF_mono (Nat.le_max_right g f) (by rw [hd]; simp), hd]
                      rw [this]
                      exact h2 g _
            | err e => simp only []; omega
            | panic => simp only []; omega
            | hang => simp only []; omega
          · right
            intro g acc
            cases g with
            | zero => rw [listLoop]
            | succ g => rw [loop, h1 g]; rfl
    · rw [dictHeld]
      cases hb : c[p]? with
      | none => simp only []; omega
      | some b =>
        have hlt : p < c.length := (List.getElem?_eq_some_iff.mp hb).1
        simp only []
        by_cases hbe : b = 101
        · simp only [hbe, if_true]; omega
        simp only [hbe, if_false]
        cases hs : parseString c p with
        | ok a =>
          obtain ⟨k, p1⟩ := a
          have hbd := parseString_bounds hs
          have hp1 : p + k.length + 2 ≤ p1 := by
            obtain ⟨ds, x, rest, -, hne, -, -, -, -, rfl⟩ := parseString_ok.mp hs
            have := List.length_pos_iff.mpr hne
            omega
          simp only []
          by_cases hu : validUtf8 k = true
          · simp only [hu, if_true]
            have loop : ∀ g acc, dictLoop (g + 1) c p acc = (decodeF g c p1 >>= fun (x : Metainfo × Nat) => dictLoop g c x.2 (mapInsert acc k x.1)) := by
              intro g acc
              rw [dictLoop, hb]
              simp only [hbe, if_false, hs, Res.bind_ok, hu, if_true]
            rcases ih1 c p1 hbd.2 with h1 | h1
            · cases hd : decodeF f c p1 with
              | ok a =>
                obtain ⟨w, p2⟩ := a
                obtain ⟨hq1, hq2, hq3⟩ := (progress f).1 _ _ _ _ hd
                simp only []
                have hm := unitsEntries_mapInsert acc k w
                have hl2 := hq2 hbd.2
                rcases ih3 c p2 (mapInsert acc k w) hl2 with h2 | h2
                · left
                  rcases (units_of_decode f).1 _ _ _ _ hd with ⟨rfl, rfl⟩ | hu2
                  · simp only [Metainfo.units] at hm; omega
                  · omega
                · right
                  intro g acc
                  cases g with
                  | zero => rw [dictLoop]
                  | succ g =>
                    rw [loop]
                    by_cases hg : decodeF g c p1 = .hang
                    · rw [hg]; rfl
                    · have : decodeF g c p1 = .ok (w, p2) := by
                        rw [← decodeF_mono (Nat.le_max_left g f) hg, decodeF_mono (Nat.le_max_right g f) (by rw [hd]; simp), hd]
                      rw [this]
                      exact h2 g _
              | err e => simp only []; omega
              | panic => simp only []; omega
              | hang => simp only []; omega
            · right
              intro g acc
              cases g with
              | zero => rw [dictLoop]
              | succ g => rw [loop, h1 g]; rfl
          · simp only [hu]; left; simp; omega
        | err e => simp only []; omega
        | panic => simp only []; omega
        | hang => simp only []; omega

/-- A list that meets a byte it cannot handle grows without end. -/
theorem listHeld_stuck {c : Bytes} {p : Nat} {b : UInt8} (hb : c[p]? = some b) (hbe : b ≠ 101) (h : noValueAt c p) (n : Nat) (acc : List Metainfo) :
    unitsElems acc + n ≤ listHeld (n + 1) c p acc := by
  induction n generalizing acc with
  | zero =>
    rw [listHeld, hb]
    simp only [hbe, if_false]
    omega
  | succ n ih =>
    rw [listHeld, hb]
    simp only [hbe, if_false]
    rw [decodeF_noValue h]
    have := ih (acc ++ [.nothing])
    rw [unitsElems_append] at this
    simp only [unitsElems, Metainfo.units] at this ⊢
    omega

mutual
/-- On a stuck input the decoder holds ever more. -/
theorem held_of_stuck {d : Bytes} (h : Stuck d) (c : Bytes) (p : Nat) (e : c.drop p = d) (n : Nat) : ∃ f, n ≤ heldF f c p := by
  match h with
  | .list hs =>
    obtain ⟨f, hf⟩ := held_of_stuckElems hs c (p + 1) (drop_succ e) n []
    refine ⟨f + 1, ?_⟩
    rw [heldF, getElem?_of_drop e]
    simp only [show (108 : UInt8) ≠ 105 by decide, if_false, if_true]
    omega
  | .dict hs =>
    obtain ⟨f, hf⟩ := held_of_stuckEntries hs c (p + 1) (drop_succ e) n []
    refine ⟨f + 1, ?_⟩
    rw [heldF, getElem?_of_drop e]
    simp only [show (100 : UInt8) ≠ 105 by decide, show (100 : UInt8) ≠ 108 by decide, if_false, if_true]
    omega
theorem held_of_stuckElems {d : Bytes} (h : StuckElems d) (c : Bytes) (p : Nat) (e : c.drop p = d) (n : Nat) (acc : List Metainfo) :
    ∃ f, n ≤ listHeld f c p acc := by
  match h with
  | .here hb hs =>
    have hc := getElem?_of_drop e
    exact ⟨n + 1, by have := listHeld_stuck hc hb (noValueAt_of hc hs) n acc; omega⟩
  | .inner hs =>
    obtain ⟨f, hf⟩ := held_of_stuck hs c p e n
    have hne : ∃ b t, d = b :: t ∧ b ≠ 101 := by
      cases hs with
      | list _ => exact ⟨108, _, rfl, by decide⟩
      | dict _ => exact ⟨100, _, rfl, by decide⟩
    obtain ⟨b, t, rfl, hb⟩ := hne
    refine ⟨f + 1, ?_⟩
    rw [listHeld, getElem?_of_drop e]
    simp only [hb, if_false]
    omega
  | .next (v := v) (bs := bs) (c := c') hv hs =>
    obtain ⟨f1, h1⟩ := decode_lenient hv c p c' e
    obtain ⟨f2, h2⟩ := held_of_stuckElems hs c _ (drop_add e) n (acc ++ [v])
    obtain ⟨b, t, hb, hne, -⟩ := lenient_head hv
    refine ⟨max f1 f2 + 1, ?_⟩
    rw [listHeld, getElem?_of_drop (b := b) (t := t ++ c') (by rw [e, hb]; rfl)]
    simp only [hne, if_false]
    rw [decodeF_mono (Nat.le_max_left f1 f2) (by rw [h1]; simp), h1]
    have := listHeld_mono (Nat.le_max_right f1 f2) c (p + bs.length) (acc ++ [v])
    simp only []
    omega
theorem held_of_stuckEntries {d : Bytes} (h : StuckEntries d) (c : Bytes) (p : Nat) (e : c.drop p = d) (n : Nat) (acc : List (Bytes × Metainfo)) :
    ∃ f, n ≤ dictHeld f c p acc := by
  match h with
  | .inner (ks := ks) (c := c') hk hu hs =>
    obtain ⟨f, hf⟩ := held_of_stuck hs c _ (drop_add e) n
    obtain ⟨b, t, hb, hdig⟩ := lenientStr_head hk
    refine ⟨f + 1, ?_⟩
    rw [dictHeld, getElem?_of_drop (b := b) (t := t ++ c') (by rw [e, hb]; rfl)]
    simp only [(digit_ne hdig).2.2.2, if_false]
    rw [parseString_of_lenientStr hk e]
    simp only [hu, if_true]
    omega
  | .next (k := k) (v := v) (ks := ks) (bs := bs) (c := c') hk hu hv hs =>
    have e0 : c.drop p = ks ++ (bs ++ c') := by simpa using e
    have e1 := drop_add e0
    obtain ⟨f1, h1⟩ := decode_lenient hv c _ _ e1
    obtain ⟨f2, h2⟩ := held_of_stuckEntries hs c _ (drop_add e1) n (mapInsert acc k v)
    obtain ⟨b, t, hb, hdig⟩ := lenientStr_head hk
    refine ⟨max f1 f2 + 1, ?_⟩
    rw [dictHeld, getElem?_of_drop (b := b) (t := t ++ (bs ++ c')) (by rw [e0, hb]; rfl)]
    simp only [(digit_ne hdig).2.2.2, if_false]
    rw [parseString_of_lenientStr hk e0]
    simp only [hu, if_true]
    rw [decodeF_mono (Nat.le_max_left f1 f2) (by rw [h1]; simp), h1]
    have := dictHeld_mono (Nat.le_max_right f1 f2) c (p + ks.length + bs.length) (mapInsert acc k v)
    simp only []
    omega
  | .noValue (k := k) (ks := ks) (b := x) (c := c') hk hu hn hs =>
    have e1 := drop_add e
    obtain ⟨f2, h2⟩ := held_of_stuckEntries hs c _ e1 n (mapInsert acc k .nothing)
    obtain ⟨b, t, hb, hdig⟩ := lenientStr_head hk
    have hnv := noValueAt_of (getElem?_of_drop e1) hn
    refine ⟨f2 + 1 + 1, ?_⟩
    rw [dictHeld, getElem?_of_drop (b := b) (t := t ++ x :: c') (by rw [e, hb]; rfl)]
    simp only [(digit_ne hdig).2.2.2, if_false]
    rw [parseString_of_lenientStr hk e]
    simp only [hu, if_true]
    rw [decodeF_noValue hnv]
    have := dictHeld_mono (Nat.le_add_right f2 1) c (p + ks.length) (mapInsert acc k .nothing)
    simp only []
    omega
end

/-- A value that has been read is held in the end. -/
theorem held_of_decode (f : Nat) :
    (∀ c p v q, decodeF f c p = .ok (v, q) → v.units ≤ heldF f c p) ∧
    (∀ c p acc v q, listLoop f c p acc = .ok (v, q) → v.units ≤ listHeld f c p acc) ∧
    (∀ c p acc v q, dictLoop f c p acc = .ok (v, q) → v.units ≤ dictHeld f c p acc) := by
  induction f with
  | zero => refine ⟨?_, ?_, ?_⟩ <;> intros <;> simp_all [decodeF, listLoop, dictLoop]
  | succ f ih =>
    obtain ⟨ih1, ih2, ih3⟩ := ih
    refine ⟨?_, ?_, ?_⟩
    · intro c p v q h
      rw [decodeF] at h
      rw [heldF]
      cases hb : c[p]? with
      | none =>
        simp only [hb, Res.ok.injEq, Prod.mk.injEq] at h
        obtain ⟨rfl, -⟩ := h
        simp [Metainfo.units]
      | some b =>
        simp only [hb] at h ⊢
        split at h
        · rename_i h1
          obtain ⟨n, q1, -, rfl, rfl⟩ := parseInteger_ok.mp h
          rw [if_pos h1]
          simp [Metainfo.units]
        · rename_i h1
          rw [if_neg h1]
          split at h
          · rename_i h2
            rw [if_pos h2]
            exact ih2 _ _ _ _ _ h
          · rename_i h2
            rw [if_neg h2]
            split at h
            · rename_i h3
              rw [if_pos h3]
              exact ih3 _ _ _ _ _ h
            · rename_i h3
              rw [if_neg h3]
              split at h
              · rename_i h4
                rw [if_pos h4]
                cases hs : parseString c p with
                | ok a =>
                  obtain ⟨s, p1⟩ := a
                  rw [hs] at h
                  simp only [Res.bind_ok, Res.ok.injEq, Prod.mk.injEq] at h
                  obtain ⟨rfl, rfl⟩ := h
                  simp [Metainfo.units]
                | err e => rw [hs] at h; cases h
                | panic => rw [hs] at h; cases h
                | hang => rw [hs] at h; cases h
              · rename_i h4
                rw [if_neg h4]
                simp only [Res.ok.injEq, Prod.mk.injEq] at h
                obtain ⟨rfl, -⟩ := h
                simp [Metainfo.units]
    · intro c p acc v q h
      rw [listLoop] at h
      rw [listHeld]
      cases hb : c[p]? with
      | none => rw [hb] at h; cases h
      | some b =>
        simp only [hb] at h ⊢
        split at h
        · rename_i h1
          simp only [Res.ok.injEq, Prod.mk.injEq] at h
          obtain ⟨rfl, -⟩ := h
          rw [if_pos h1]
          simp [Metainfo.units]
        · rename_i h1
          rw [if_neg h1]
          cases hd : decodeF f c p with
          | ok a =>
            obtain ⟨v1, p1⟩ := a
            rw [hd] at h
            simp only [Res.bind_ok] at h
            have := ih2 _ _ _ _ _ h
            simp only
            omega
          | err e => rw [hd] at h; cases h
          | panic => rw [hd] at h; cases h
          | hang => rw [hd] at h; cases h
    · intro c p acc v q h
      rw [dictLoop] at h
      rw [dictHeld]
      cases hb : c[p]? with
      | none => rw [hb] at h; cases h
      | some b =>
        simp only [hb] at h ⊢
        split at h
        · rename_i h1
          simp only [Res.ok.injEq, Prod.mk.injEq] at h
          obtain ⟨rfl, -⟩ := h
          rw [if_pos h1]
          simp [Metainfo.units]
        · rename_i h1
          rw [if_neg h1]
          cases hs : parseString c p with
          | ok a =>
            obtain ⟨k, p1⟩ := a
            rw [hs] at h
            simp only [Res.bind_ok] at h ⊢
            split at h
            · rename_i hu
              rw [if_pos hu]
              cases hd : decodeF f c p1 with
              | ok a =>
                obtain ⟨v1, p2⟩ := a
                rw [hd] at h
                simp only [Res.bind_ok] at h
                have := ih3 _ _ _ _ _ h
                simp only
                omega
              | err e => rw [hd] at h; cases h
              | panic => rw [hd] at h; cases h
              | hang => rw [hd] at h; cases h
            · cases h
          | err e => rw [hs] at h; cases h
          | panic => rw [hs] at h; cases h
          | hang => rw [hs] at h; cases h

end RustBit
