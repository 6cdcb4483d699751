/- Lemmas about the decoder: fuel, progress, locality. -/
import Verif.Proofs.Prelude

namespace RustBit
namespace Decoder

theorem drop_eq_of_getElem? {c : Bytes} {p : Nat} {b : UInt8} (h : c[p]? = some b) :
    c.drop p = b :: c.drop (p + 1) := by
  obtain ⟨h1, h2⟩ := List.getElem?_eq_some_iff.mp h
  rw [List.drop_eq_getElem_cons h1, h2]

theorem getConsecutiveDigits_ok {c : Bytes} {p n q : Nat} :
    getConsecutiveDigits c p = .ok (n, q) ↔
      ∃ ds x t, c.drop p = ds ++ x :: t ∧ ds ≠ [] ∧ (∀ d ∈ ds, isDigit d = true) ∧
        isDigit x = false ∧ Spec.value ds = n ∧ n < 2 ^ 64 ∧ q = p + ds.length := by
  constructor
  · intro h
    unfold getConsecutiveDigits at h
    split at h
    · cases h
    · rename_i k hk
      obtain ⟨x, t, e, hd, hx, hl⟩ := countDigits_some hk
      have hlen : p + k ≤ c.length := by simp at hl; omega
      rw [slice_of_le (by omega) hlen] at h
      have hs : (c.take (p + k)).drop p = (c.drop p).take k := by
        rw [List.drop_take]; congr 1; omega
      rw [hs] at h
      simp only [Res.bind_ok, validUtf8_digits _ hd, if_true] at h
      split at h
      · rename_i n' hn
        simp only [Res.ok.injEq, Prod.mk.injEq] at h
        obtain ⟨rfl, rfl⟩ := h
        obtain ⟨h1, h2, h3⟩ := parseUsize_some.mp hn
        refine ⟨(c.drop p).take k, x, t, e, h1, hd, hx, h2, h3, ?_⟩
        simp only [List.length_take]
        omega
      · cases h
  · rintro ⟨ds, x, t, e, hne, hd, hx, hv, hn, rfl⟩
    unfold getConsecutiveDigits
    rw [e, countDigits_append ds x t hd hx]
    have hlen : p + ds.length ≤ c.length := by
      have := congrArg List.length e
      simp at this
      omega
    simp only [slice_of_le (Nat.le_add_right p ds.length) hlen, Res.bind_ok]
    have hs : (c.take (p + ds.length)).drop p = ds := by
      rw [List.drop_take, e, Nat.add_sub_cancel_left]; simp
    rw [hs]
    simp only [validUtf8_digits _ hd, if_true]
    rw [parseUsize_some.mpr ⟨hne, hv, hn⟩]

theorem getConsecutiveDigits_ne_hang (c : Bytes) (p : Nat) : getConsecutiveDigits c p ≠ .hang := by
  unfold getConsecutiveDigits
  split
  · simp
  · unfold slice
    split
    · simp only [Res.bind_ok]
      split
      · split <;> simp
      · simp
    · simp

theorem parseInteger_ok {c : Bytes} {p q : Nat} {v : Metainfo} :
    parseInteger c p = .ok (v, q) ↔
      ∃ n q', getConsecutiveDigits c (p + 1) = .ok (n, q') ∧ v = .integer n ∧ q = q' + 1 := by
  unfold parseInteger
  cases h : getConsecutiveDigits c (p + 1) with
  | ok a =>
    obtain ⟨n, q'⟩ := a
    simp only [Res.bind_ok, Res.ok.injEq, Prod.mk.injEq]
    constructor
    · rintro ⟨rfl, rfl⟩; exact ⟨n, q', ⟨rfl, rfl⟩, rfl, rfl⟩
    · rintro ⟨n', q'', ⟨rfl, rfl⟩, rfl, rfl⟩; exact ⟨rfl, rfl⟩
  | err e => simp
  | panic => simp
  | hang => simp

theorem parseInteger_ne_hang (c : Bytes) (p : Nat) : parseInteger c p ≠ .hang := by
  unfold parseInteger
  have := getConsecutiveDigits_ne_hang c (p + 1)
  cases h : getConsecutiveDigits c (p + 1) <;> simp_all

theorem parseString_ok {c : Bytes} {p q : Nat} {s : Bytes} :
    parseString c p = .ok (s, q) ↔
      ∃ ds x t, c.drop p = ds ++ x :: (s ++ t) ∧ ds ≠ [] ∧ (∀ d ∈ ds, isDigit d = true) ∧
        isDigit x = false ∧ Spec.value ds = s.length ∧ s.length < 2 ^ 64 ∧
        q = p + ds.length + 1 + s.length := by
  unfold parseString
  cases h : getConsecutiveDigits c p with
  | ok a =>
    obtain ⟨n, q'⟩ := a
    simp only [Res.bind_ok]
    obtain ⟨ds, x, t, e, hne, hd, hx, hv, hn, hq⟩ := getConsecutiveDigits_ok.mp h
    have hlen := congrArg List.length e
    simp only [List.length_drop, List.length_append, List.length_cons] at hlen
    have hdrop : ∀ k, c.drop (q' + 1 + k) = t.drop k := by
      intro k
      have : c.drop (q' + 1 + k) = (c.drop p).drop (ds.length + (1 + k)) := by
        rw [List.drop_drop]; congr 1; omega
      rw [this, e, ← List.drop_drop, List.drop_left]
      simp [Nat.add_comm 1 k]
    constructor
    · intro hb
      cases hs : (slice c (q' + 1) (q' + 1 + n) : Res DecoderError _) with
      | ok b =>
        rw [hs] at hb
        simp only [Res.bind_ok, Res.ok.injEq, Prod.mk.injEq] at hb
        obtain ⟨rfl, rfl⟩ := hb
        obtain ⟨h1, h2, h3⟩ := slice_ok.mp hs
        have hb : b = t.take n := by
          rw [h3, List.drop_take, Nat.add_sub_cancel_left]
          have := hdrop 0
          simp at this
          rw [this]
        have hbl : b.length = n := by rw [hb, List.length_take]; omega
        refine ⟨ds, x, t.drop n, ?_, hne, hd, hx, by omega, by omega, by omega⟩
        rw [hb, List.take_append_drop, e]
      | err e => rw [hs] at hb; cases hb
      | panic => rw [hs] at hb; cases hb
      | hang => rw [hs] at hb; cases hb
    · rintro ⟨ds', x', t', e', hne', hd', hx', hv', hn', rfl⟩
      rw [e] at e'
      have c1 := countDigits_append ds x t hd hx
      have c2 := countDigits_append ds' x' (s ++ t') hd' hx'
      rw [e'] at c1
      rw [c1] at c2
      have hl : ds.length = ds'.length := by simpa using c2
      obtain ⟨rfl, e2⟩ := List.append_inj e' hl
      simp only [List.cons.injEq] at e2
      obtain ⟨rfl, rfl⟩ := e2
      have hns : n = s.length := by omega
      subst hns
      simp only [List.length_append] at hlen
      rw [slice_of_le (by omega) (by omega)]
      simp only [Res.bind_ok, Res.ok.injEq, Prod.mk.injEq]
      refine ⟨?_, by omega⟩
      rw [List.drop_take, Nat.add_sub_cancel_left]
      have := hdrop 0
      simp at this
      rw [this]; simp
  | err e =>
    simp only [Res.bind_err, reduceCtorEq, false_iff]
    rintro ⟨ds', x', t', e', hne', hd', hx', hv', hn', rfl⟩
    have : getConsecutiveDigits c p = .ok (s.length, p + ds'.length) :=
      getConsecutiveDigits_ok.mpr ⟨ds', x', _, e', hne', hd', hx', hv', hn', rfl⟩
    rw [h] at this; cases this
  | panic =>
    simp only [Res.bind_panic, reduceCtorEq, false_iff]
    rintro ⟨ds', x', t', e', hne', hd', hx', hv', hn', rfl⟩
    have : getConsecutiveDigits c p = .ok (s.length, p + ds'.length) :=
      getConsecutiveDigits_ok.mpr ⟨ds', x', _, e', hne', hd', hx', hv', hn', rfl⟩
    rw [h] at this; cases this
  | hang => exact absurd h (getConsecutiveDigits_ne_hang c p)

theorem parseString_ne_hang (c : Bytes) (p : Nat) : parseString c p ≠ .hang := by
  unfold parseString
  have := getConsecutiveDigits_ne_hang c p
  cases h : getConsecutiveDigits c p with
  | ok a =>
    simp only [Res.bind_ok]
    have := slice_ne_hang (ε := DecoderError) c (a.2 + 1) (a.2 + 1 + a.1)
    cases h2 : (slice c (a.2 + 1) (a.2 + 1 + a.1) : Res DecoderError _) <;> simp_all
  | _ => simp_all

theorem parseString_bounds {c : Bytes} {p q : Nat} {s : Bytes} (h : parseString c p = .ok (s, q)) :
    p + 2 ≤ q ∧ q ≤ c.length := by
  obtain ⟨ds, x, t, e, hne, -, -, -, -, rfl⟩ := parseString_ok.mp h
  have := congrArg List.length e
  simp only [List.length_drop, List.length_append, List.length_cons] at this
  have := List.length_pos_iff.mpr hne
  omega

theorem parseInteger_bounds {c : Bytes} {p q : Nat} {v : Metainfo}
    (h : parseInteger c p = .ok (v, q)) : p + 3 ≤ q ∧ q ≤ c.length := by
  obtain ⟨n, q', h1, -, rfl⟩ := parseInteger_ok.mp h
  obtain ⟨ds, x, t, e, hne, -, -, -, -, rfl⟩ := getConsecutiveDigits_ok.mp h1
  have := congrArg List.length e
  simp only [List.length_drop, List.length_append, List.length_cons] at this
  have := List.length_pos_iff.mpr hne
  omega

/-! ### Fuel monotonicity -/

theorem mono (f : Nat) :
    (∀ c p, decodeF f c p ≠ .hang → decodeF (f + 1) c p = decodeF f c p) ∧
    (∀ c p acc, listLoop f c p acc ≠ .hang → listLoop (f + 1) c p acc = listLoop f c p acc) ∧
    (∀ c p acc, dictLoop f c p acc ≠ .hang → dictLoop (f + 1) c p acc = dictLoop f c p acc) := by
  induction f with
  | zero => refine ⟨?_, ?_, ?_⟩ <;> intros <;> simp_all [decodeF, listLoop, dictLoop]
  | succ f ih =>
    obtain ⟨ih1, ih2, ih3⟩ := ih
    refine ⟨?_, ?_, ?_⟩
    · intro c p h
      rw [decodeF] at h ⊢
      conv => rhs; rw [decodeF]
      cases hb : c[p]? with
      | none => rfl
      | some b =>
        simp only [hb] at h ⊢
        split
        · rfl
        · split
          · apply ih2; simp_all
          · split
            · apply ih3; simp_all
            · rfl
    · intro c p acc h
      rw [listLoop] at h ⊢
      conv => rhs; rw [listLoop]
      cases hb : c[p]? with
      | none => rfl
      | some b =>
        simp only [hb] at h ⊢
        split
        · rfl
        · rename_i hne
          simp only [hne, if_false] at h
          cases hd : decodeF f c p with
          | hang => rw [hd] at h; simp at h
          | ok a =>
            rw [ih1 c p (by rw [hd]; simp), hd]
            rw [hd] at h
            simp only [Res.bind_ok] at h ⊢
            exact ih2 _ _ _ h
          | err e => rw [ih1 c p (by rw [hd]; simp), hd]; rfl
          | panic => rw [ih1 c p (by rw [hd]; simp), hd]; rfl
    · intro c p acc h
      rw [dictLoop] at h ⊢
      conv => rhs; rw [dictLoop]
      cases hb : c[p]? with
      | none => rfl
      | some b =>
        simp only [hb] at h ⊢
        split
        · rfl
        · rename_i hne
          simp only [hne, if_false] at h
          cases hs : parseString c p with
          | hang => rfl
          | err e => rfl
          | panic => rfl
          | ok a =>
            rw [hs] at h
            simp only [Res.bind_ok] at h ⊢
            split
            · rename_i hu
              simp only [hu, if_true] at h
              cases hd : decodeF f c a.2 with
              | hang => rw [hd] at h; simp at h
              | ok a =>
                rw [ih1 c _ (by rw [hd]; simp), hd]
                rw [hd] at h
                simp only [Res.bind_ok] at h ⊢
                exact ih3 _ _ _ h
              | err e => rw [ih1 c _ (by rw [hd]; simp), hd]; rfl
              | panic => rw [ih1 c _ (by rw [hd]; simp), hd]; rfl
            · rfl

theorem decodeF_mono {f g : Nat} {c : Bytes} {p : Nat} (hfg : f ≤ g) (h : decodeF f c p ≠ .hang) :
    decodeF g c p = decodeF f c p := by
  induction hfg with
  | refl => rfl
  | step _ ih => rw [(mono _).1 c p (by rw [ih]; exact h), ih]

theorem listLoop_mono {f g : Nat} {c : Bytes} {p : Nat} {acc} (hfg : f ≤ g)
    (h : listLoop f c p acc ≠ .hang) : listLoop g c p acc = listLoop f c p acc := by
  induction hfg with
  | refl => rfl
  | step _ ih => rw [(mono _).2.1 c p acc (by rw [ih]; exact h), ih]

theorem dictLoop_mono {f g : Nat} {c : Bytes} {p : Nat} {acc} (hfg : f ≤ g)
    (h : dictLoop f c p acc ≠ .hang) : dictLoop g c p acc = dictLoop f c p acc := by
  induction hfg with
  | refl => rfl
  | step _ ih => rw [(mono _).2.2 c p acc (by rw [ih]; exact h), ih]

/-! ### Progress and bounds -/

/-- Whether the byte at a position starts a value; otherwise `decode` returns `Nothing` there. -/
def noValueAt (c : Bytes) (p : Nat) : Prop :=
  match c[p]? with
  | none => True
  | some b => b ≠ c!"i" ∧ b ≠ c!"l" ∧ b ≠ c!"d" ∧ ¬(49 ≤ b && b ≤ 57) = true

theorem decodeF_noValue {c : Bytes} {p : Nat} (h : noValueAt c p) (f : Nat) :
    decodeF (f + 1) c p = .ok (.nothing, p) := by
  unfold noValueAt at h
  rw [decodeF]
  cases hb : c[p]? with
  | none => rfl
  | some b =>
    simp only [hb] at h
    simp only [h.1, h.2.1, h.2.2.1, if_false]
    rw [if_neg h.2.2.2]

theorem progress (f : Nat) :
    (∀ c p v q, decodeF f c p = .ok (v, q) →
      p ≤ q ∧ (p ≤ c.length → q ≤ c.length) ∧ (q = p → v = .nothing ∧ noValueAt c p)) ∧
    (∀ c p acc v q, listLoop f c p acc = .ok (v, q) → p < q ∧ q ≤ c.length) ∧
    (∀ c p acc v q, dictLoop f c p acc = .ok (v, q) → p < q ∧ q ≤ c.length) := by
  induction f with
  | zero => refine ⟨?_, ?_, ?_⟩ <;> intros <;> simp_all [decodeF, listLoop, dictLoop]
  | succ f ih =>
    obtain ⟨ih1, ih2, ih3⟩ := ih
    refine ⟨?_, ?_, ?_⟩
    · intro c p v q h
      rw [decodeF] at h
      cases hb : c[p]? with
      | none =>
        simp only [hb, Res.ok.injEq, Prod.mk.injEq] at h
        obtain ⟨rfl, rfl⟩ := h
        exact ⟨Nat.le_refl _, id, fun _ => ⟨rfl, by simp [noValueAt, hb]⟩⟩
      | some b =>
        simp only [hb] at h
        split at h
        · have := parseInteger_bounds h
          exact ⟨by omega, fun _ => this.2, fun e => by omega⟩
        · split at h
          · have := ih2 _ _ _ _ _ h
            exact ⟨by omega, fun _ => this.2, fun e => by omega⟩
          · split at h
            · have := ih3 _ _ _ _ _ h
              exact ⟨by omega, fun _ => this.2, fun e => by omega⟩
            · split at h
              · cases hs : parseString c p with
                | ok a =>
                  obtain ⟨s, p1⟩ := a
                  rw [hs] at h
                  simp only [Res.bind_ok, Res.ok.injEq, Prod.mk.injEq] at h
                  obtain ⟨rfl, rfl⟩ := h
                  have := parseString_bounds hs
                  exact ⟨by omega, fun _ => this.2, fun e => by omega⟩
                | err e => rw [hs] at h; cases h
                | panic => rw [hs] at h; cases h
                | hang => rw [hs] at h; cases h
              · simp only [Res.ok.injEq, Prod.mk.injEq] at h
                obtain ⟨rfl, rfl⟩ := h
                refine ⟨Nat.le_refl _, id, fun _ => ⟨rfl, ?_⟩⟩
                unfold noValueAt
                rw [hb]
                exact ⟨by assumption, by assumption, by assumption, by assumption⟩
    · intro c p acc v q h
      rw [listLoop] at h
      cases hb : c[p]? with
      | none => simp [hb] at h
      | some b =>
        have hp : p < c.length := (List.getElem?_eq_some_iff.mp hb).1
        simp only [hb] at h
        split at h
        · simp only [Res.ok.injEq, Prod.mk.injEq] at h; omega
        · cases hd : decodeF f c p with
          | ok a =>
            rw [hd] at h
            simp only [Res.bind_ok] at h
            have h1 := ih1 _ _ _ _ hd
            have h2 := ih2 _ _ _ _ _ h
            omega
          | err e => rw [hd] at h; cases h
          | panic => rw [hd] at h; cases h
          | hang => rw [hd] at h; cases h
    · intro c p acc v q h
      rw [dictLoop] at h
      cases hb : c[p]? with
      | none => simp [hb] at h
      | some b =>
        have hp : p < c.length := (List.getElem?_eq_some_iff.mp hb).1
        simp only [hb] at h
        split at h
        · simp only [Res.ok.injEq, Prod.mk.injEq] at h; omega
        · cases hs : parseString c p with
          | ok a =>
            obtain ⟨k, p1⟩ := a
            rw [hs] at h
            simp only [Res.bind_ok] at h
            split at h
            · cases hd : decodeF f c p1 with
              | ok a =>
                rw [hd] at h
                simp only [Res.bind_ok] at h
                have h0 := parseString_bounds hs
                have h1 := ih1 _ _ _ _ hd
                have h2 := ih3 _ _ _ _ _ h
                omega
              | err e => rw [hd] at h; cases h
              | panic => rw [hd] at h; cases h
              | hang => rw [hd] at h; cases h
            · cases h
          | err e => rw [hs] at h; cases h
          | panic => rw [hs] at h; cases h
          | hang => rw [hs] at h; cases h

/-! ### A hang with enough fuel is a genuine non-termination -/

theorem listLoop_stuck {c : Bytes} {p : Nat} (h : noValueAt c p)
    (hb : ∃ b, c[p]? = some b ∧ b ≠ c!"e") (f : Nat) (acc : List Metainfo) :
    listLoop f c p acc = .hang := by
  induction f generalizing acc with
  | zero => rw [listLoop]
  | succ f ih =>
    obtain ⟨b, hb, hbe⟩ := hb
    rw [listLoop]
    simp only [hb, hbe, if_false]
    cases f with
    | zero => simp [decodeF]
    | succ f => rw [decodeF_noValue h]; simp only [Res.bind_ok]; exact ih _

theorem hang_forever (f : Nat) :
    (∀ c p, 2 * (c.length - p) + 1 ≤ f → decodeF f c p = .hang → ∀ g, decodeF g c p = .hang) ∧
    (∀ c p acc, 2 * (c.length - p) + 2 ≤ f → listLoop f c p acc = .hang →
      ∀ g, listLoop g c p acc = .hang) ∧
    (∀ c p acc, 2 * (c.length - p) + 2 ≤ f → dictLoop f c p acc = .hang →
      ∀ g, dictLoop g c p acc = .hang) := by
  induction f with
  | zero => refine ⟨?_, ?_, ?_⟩ <;> intros <;> omega
  | succ f ih =>
    obtain ⟨ih1, ih2, ih3⟩ := ih
    refine ⟨?_, ?_, ?_⟩
    · intro c p hf h g
      cases g with
      | zero => rw [decodeF]
      | succ g =>
      rw [decodeF] at h ⊢
      cases hb : c[p]? with
      | none => simp [hb] at h
      | some b =>
        have hp : p < c.length := (List.getElem?_eq_some_iff.mp hb).1
        simp only [hb] at h ⊢
        split
        · rename_i hi; simp only [hi, if_true] at h; exact absurd h (parseInteger_ne_hang _ _)
        · rename_i hi; simp only [hi, if_false] at h
          split
          · rename_i hl; simp only [hl, if_true] at h
            exact ih2 _ _ _ (by omega) h g
          · rename_i hl; simp only [hl, if_false] at h
            split
            · rename_i hd; simp only [hd, if_true] at h
              exact ih3 _ _ _ (by omega) h g
            · rename_i hd; simp only [hd, if_false] at h
              split
              · rename_i hs; rw [if_pos hs] at h
                cases hs : parseString c p with
                | hang => exact absurd hs (parseString_ne_hang _ _)
                | ok a => rw [hs] at h; simp at h
                | err e => rw [hs] at h; cases h
                | panic => rw [hs] at h; cases h
              · rename_i hs; rw [if_neg hs] at h; cases h
    · intro c p acc hf h g
      cases g with
      | zero => rw [listLoop]
      | succ g =>
      have hb' := h
      rw [listLoop] at hb'
      cases hb : c[p]? with
      | none => simp [hb] at hb'
      | some b =>
        have hp : p < c.length := (List.getElem?_eq_some_iff.mp hb).1
        simp only [hb] at hb'
        split at hb'
        · cases hb'
        · rename_i hne
          cases hd : decodeF f c p with
          | hang =>
            rw [listLoop]; simp only [hb, hne, if_false]
            rw [ih1 c p (by omega) hd g]; rfl
          | ok a =>
            obtain ⟨v, p1⟩ := a
            rw [hd] at hb'
            simp only [Res.bind_ok] at hb'
            obtain ⟨h1, h2, h3⟩ := (progress f).1 _ _ _ _ hd
            by_cases e : p1 = p
            · exact listLoop_stuck (h3 e).2 ⟨b, hb, hne⟩ _ _
            · have h4 := h2 (by omega)
              have := ih2 c p1 (acc ++ [v]) (by omega) hb'
              rw [listLoop]; simp only [hb, hne, if_false]
              cases hg : decodeF g c p with
              | hang => rfl
              | ok a =>
                have e1 := decodeF_mono (Nat.le_max_left f g) (p := p) (c := c) (by rw [hd]; simp)
                have e2 := decodeF_mono (Nat.le_max_right f g) (p := p) (c := c) (by rw [hg]; simp)
                rw [e1, hd, hg] at e2
                simp only [Res.ok.injEq] at e2
                subst e2
                simp only [Res.bind_ok]
                exact this g
              | err e =>
                have e1 := decodeF_mono (Nat.le_max_left f g) (p := p) (c := c) (by rw [hd]; simp)
                have e2 := decodeF_mono (Nat.le_max_right f g) (p := p) (c := c) (by rw [hg]; simp)
                rw [e1, hd, hg] at e2; cases e2
              | panic =>
                have e1 := decodeF_mono (Nat.le_max_left f g) (p := p) (c := c) (by rw [hd]; simp)
                have e2 := decodeF_mono (Nat.le_max_right f g) (p := p) (c := c) (by rw [hg]; simp)
                rw [e1, hd, hg] at e2; cases e2
          | err e => rw [hd] at hb'; cases hb'
          | panic => rw [hd] at hb'; cases hb'
    · intro c p acc hf h g
      cases g with
      | zero => rw [dictLoop]
      | succ g =>
      have hb' := h
      rw [dictLoop] at hb' ⊢
      cases hb : c[p]? with
      | none => simp [hb] at hb'
      | some b =>
        have hp : p < c.length := (List.getElem?_eq_some_iff.mp hb).1
        simp only [hb] at hb' ⊢
        split at hb'
        · cases hb'
        · rename_i hne
          simp only [hne, if_false]
          cases hs : parseString c p with
          | hang => rfl
          | err e => rw [hs] at hb'; cases hb'
          | panic => rw [hs] at hb'; cases hb'
          | ok a =>
            obtain ⟨k, p0⟩ := a
            have hbd := parseString_bounds hs
            rw [hs] at hb'
            simp only [Res.bind_ok] at hb' ⊢
            split at hb'
            · rename_i hu
              simp only [hu, if_true]
              cases hd : decodeF f c p0 with
              | hang => rw [ih1 c p0 (by omega) hd g]; rfl
              | err e => rw [hd] at hb'; cases hb'
              | panic => rw [hd] at hb'; cases hb'
              | ok a =>
                obtain ⟨v, p1⟩ := a
                rw [hd] at hb'
                simp only [Res.bind_ok] at hb'
                obtain ⟨h1, h2, h3⟩ := (progress f).1 _ _ _ _ hd
                have h4 := h2 (by omega)
                have := ih3 c p1 _ (by omega) hb'
                cases hg : decodeF g c p0 with
                | hang => rfl
                | ok a =>
                  have e1 := decodeF_mono (Nat.le_max_left f g) (p := p0) (c := c) (by rw [hd]; simp)
                  have e2 := decodeF_mono (Nat.le_max_right f g) (p := p0) (c := c) (by rw [hg]; simp)
                  rw [e1, hd, hg] at e2
                  simp only [Res.ok.injEq] at e2
                  subst e2
                  simp only [Res.bind_ok]
                  exact this g
                | err e =>
                  have e1 := decodeF_mono (Nat.le_max_left f g) (p := p0) (c := c) (by rw [hd]; simp)
                  have e2 := decodeF_mono (Nat.le_max_right f g) (p := p0) (c := c) (by rw [hg]; simp)
                  rw [e1, hd, hg] at e2; cases e2
                | panic =>
                  have e1 := decodeF_mono (Nat.le_max_left f g) (p := p0) (c := c) (by rw [hd]; simp)
                  have e2 := decodeF_mono (Nat.le_max_right f g) (p := p0) (c := c) (by rw [hg]; simp)
                  rw [e1, hd, hg] at e2; cases e2
            · cases hb'

/-- The fuel of `decodeAt` decides: if some amount of fuel gives a result, `decodeAt` gives it. -/
theorem decodeAt_of_fuel {f : Nat} {c : Bytes} {p : Nat} (h : decodeF f c p ≠ .hang) :
    decodeAt c p = decodeF f c p := by
  unfold decodeAt
  by_cases hh : decodeF (2 * c.length + 2) c p = .hang
  · exact absurd ((hang_forever _).1 c p (by omega) hh f) h
  · have e1 := decodeF_mono (Nat.le_max_left f (2 * c.length + 2)) h
    have e2 := decodeF_mono (Nat.le_max_right f (2 * c.length + 2)) hh
    rw [← e1, ← e2]

theorem decodeAt_hang_iff {c : Bytes} {p : Nat} :
    decodeAt c p = .hang ↔ ∀ f, decodeF f c p = .hang :=
  ⟨fun h f => (hang_forever _).1 c p (by omega) h f, fun h => h _⟩

/-! ### Locality -/

/-- Agreement of two inputs on the next `n` bytes. -/
def agree (n : Nat) (c : Bytes) (p : Nat) (c' : Bytes) (p' : Nat) : Prop :=
  (c.drop p).take n = (c'.drop p').take n

theorem agree_le {n m : Nat} {c : Bytes} {p : Nat} {c' : Bytes} {p' : Nat} (h : agree n c p c' p')
    (hm : m ≤ n) : agree m c p c' p' := by
  unfold agree at *
  have := congrArg (List.take m) h
  simpa [List.take_take, Nat.min_eq_left hm] using this

theorem agree_drop {n k : Nat} {c : Bytes} {p : Nat} {c' : Bytes} {p' : Nat} (h : agree n c p c' p') :
    agree (n - k) c (p + k) c' (p' + k) := by
  unfold agree at *
  have := congrArg (List.drop k) h
  simpa [List.drop_take, List.drop_drop] using this

theorem agree_head {n : Nat} {c : Bytes} {p : Nat} {c' : Bytes} {p' : Nat} (h : agree n c p c' p')
    (hn : 0 < n) : c[p]? = c'[p']? := by
  unfold agree at h
  have := congrArg List.head? h
  simpa [List.head?_take, Nat.ne_of_gt hn, List.head?_drop] using this

theorem agree_append {c : Bytes} {p : Nat} {c' : Bytes} {p' : Nat} {l r : Bytes}
    (e : c.drop p = l ++ r) (h : agree l.length c p c' p') : ∃ r', c'.drop p' = l ++ r' := by
  unfold agree at h
  rw [e] at h
  simp at h
  exact ⟨(c'.drop p').drop l.length, by
    conv => rhs; lhs; rw [h]
    rw [List.take_append_drop]⟩

theorem parseString_local {c : Bytes} {p q : Nat} {s : Bytes} {c' : Bytes} {p' : Nat}
    (h : parseString c p = .ok (s, q)) (ha : agree (q - p) c p c' p') :
    parseString c' p' = .ok (s, p' + (q - p)) := by
  obtain ⟨ds, x, t, e, hne, hd, hx, hv, hn, rfl⟩ := parseString_ok.mp h
  have e' : c.drop p = (ds ++ x :: s) ++ t := by simpa using e
  obtain ⟨r', hr⟩ := agree_append e' (agree_le ha (by simp; omega))
  refine parseString_ok.mpr ⟨ds, x, r', by simpa using hr, hne, hd, hx, hv, hn, by omega⟩

theorem parseInteger_local {c : Bytes} {p q : Nat} {v : Metainfo} {c' : Bytes} {p' : Nat}
    (h : parseInteger c p = .ok (v, q)) (ha : agree (q - p) c p c' p') :
    parseInteger c' p' = .ok (v, p' + (q - p)) := by
  obtain ⟨n, q', h1, rfl, rfl⟩ := parseInteger_ok.mp h
  obtain ⟨ds, x, t, e, hne, hd, hx, hv, hn, rfl⟩ := getConsecutiveDigits_ok.mp h1
  have e' : c.drop (p + 1) = (ds ++ [x]) ++ t := by simpa using e
  have ha' := agree_drop (k := 1) ha
  obtain ⟨r', hr⟩ := agree_append e' (agree_le ha' (by simp; omega))
  refine parseInteger_ok.mpr ⟨n, p' + 1 + ds.length,
    getConsecutiveDigits_ok.mpr ⟨ds, x, r', by simpa using hr, hne, hd, hx, hv, hn, rfl⟩, rfl, by omega⟩

theorem local_ (f : Nat) :
    (∀ c p v q c' p', decodeF f c p = .ok (v, q) → agree (max (q - p) 1) c p c' p' →
      decodeF f c' p' = .ok (v, p' + (q - p))) ∧
    (∀ c p acc v q c' p', listLoop f c p acc = .ok (v, q) → agree (q - p) c p c' p' →
      listLoop f c' p' acc = .ok (v, p' + (q - p))) ∧
    (∀ c p acc v q c' p', dictLoop f c p acc = .ok (v, q) → agree (q - p) c p c' p' →
      dictLoop f c' p' acc = .ok (v, p' + (q - p))) := by
  induction f with
  | zero => refine ⟨?_, ?_, ?_⟩ <;> intros <;> simp_all [decodeF, listLoop, dictLoop]
  | succ f ih =>
    obtain ⟨ih1, ih2, ih3⟩ := ih
    refine ⟨?_, ?_, ?_⟩
    · intro c p v q c' p' h ha
      have hpr := (progress (f + 1)).1 _ _ _ _ h
      rw [decodeF] at h ⊢
      have hh := agree_head ha (by omega)
      rw [← hh]
      cases hb : c[p]? with
      | none =>
        simp only [hb, Res.ok.injEq, Prod.mk.injEq] at h
        obtain ⟨rfl, rfl⟩ := h
        simp
      | some b =>
        simp only [hb] at h ⊢
        split
        · rename_i hi; simp only [hi, if_true] at h
          exact parseInteger_local h (agree_le ha (by omega))
        · rename_i hi; simp only [hi, if_false] at h
          split
          · rename_i hl; simp only [hl, if_true] at h
            have hb := (progress f).2.1 _ _ _ _ _ h
            have := ih2 _ _ _ _ _ c' (p' + 1) h (agree_le (agree_drop (k := 1) ha) (by omega))
            rw [this]; congr 2; omega
          · rename_i hl; simp only [hl, if_false] at h
            split
            · rename_i hd; simp only [hd, if_true] at h
              have hb := (progress f).2.2 _ _ _ _ _ h
              have := ih3 _ _ _ _ _ c' (p' + 1) h (agree_le (agree_drop (k := 1) ha) (by omega))
              rw [this]; congr 2; omega
            · rename_i hd; simp only [hd, if_false] at h
              split
              · rename_i hs; rw [if_pos hs] at h
                cases hs : parseString c p with
                | ok a =>
                  obtain ⟨s, p1⟩ := a
                  rw [hs] at h
                  simp only [Res.bind_ok, Res.ok.injEq, Prod.mk.injEq] at h
                  obtain ⟨rfl, rfl⟩ := h
                  rw [parseString_local hs (agree_le ha (by omega))]
                  rfl
                | err e => rw [hs] at h; cases h
                | panic => rw [hs] at h; cases h
                | hang => rw [hs] at h; cases h
              · rename_i hs; rw [if_neg hs] at h
                simp only [Res.ok.injEq, Prod.mk.injEq] at h
                obtain ⟨rfl, rfl⟩ := h
                simp
    · intro c p acc v q c' p' h ha
      have hpr := (progress (f + 1)).2.1 _ _ _ _ _ h
      rw [listLoop] at h ⊢
      have hh := agree_head ha (by omega)
      rw [← hh]
      cases hb : c[p]? with
      | none => simp [hb] at h
      | some b =>
        simp only [hb] at h ⊢
        split
        · rename_i hi; simp only [hi, if_true, Res.ok.injEq, Prod.mk.injEq] at h
          obtain ⟨rfl, rfl⟩ := h
          simp
        · rename_i hi; simp only [hi, if_false] at h
          cases hd : decodeF f c p with
          | ok a =>
            obtain ⟨w, p1⟩ := a
            rw [hd] at h
            simp only [Res.bind_ok] at h
            have h1 := (progress f).1 _ _ _ _ hd
            have h2 := (progress f).2.1 _ _ _ _ _ h
            rw [ih1 _ _ _ _ c' p' hd (agree_le ha (by omega))]
            simp only [Res.bind_ok]
            have e : p1 = p + (p1 - p) := by omega
            have ha2 : agree (q - p1) c p1 c' (p' + (p1 - p)) := by
              have := agree_drop (k := p1 - p) ha
              rw [← e] at this
              exact agree_le this (by omega)
            rw [ih2 _ _ _ _ _ c' _ h ha2]
            congr 2; omega
          | err e => rw [hd] at h; cases h
          | panic => rw [hd] at h; cases h
          | hang => rw [hd] at h; cases h
    · intro c p acc v q c' p' h ha
      have hpr := (progress (f + 1)).2.2 _ _ _ _ _ h
      rw [dictLoop] at h ⊢
      have hh := agree_head ha (by omega)
      rw [← hh]
      cases hb : c[p]? with
      | none => simp [hb] at h
      | some b =>
        simp only [hb] at h ⊢
        split
        · rename_i hi; simp only [hi, if_true, Res.ok.injEq, Prod.mk.injEq] at h
          obtain ⟨rfl, rfl⟩ := h
          simp
        · rename_i hi; simp only [hi, if_false] at h
          cases hs : parseString c p with
          | ok a =>
            obtain ⟨k, p0⟩ := a
            have hbd := parseString_bounds hs
            rw [hs] at h
            simp only [Res.bind_ok] at h
            split at h
            · rename_i hu
              cases hd : decodeF f c p0 with
              | ok a =>
                obtain ⟨w, p1⟩ := a
                rw [hd] at h
                simp only [Res.bind_ok] at h
                have h1 := (progress f).1 _ _ _ _ hd
                have h2 := (progress f).2.2 _ _ _ _ _ h
                rw [parseString_local hs (agree_le ha (by omega))]
                simp only [Res.bind_ok, hu, if_true]
                have e0 : p0 = p + (p0 - p) := by omega
                have ha1 : agree (max (p1 - p0) 1) c p0 c' (p' + (p0 - p)) := by
                  have := agree_drop (k := p0 - p) ha
                  rw [← e0] at this
                  exact agree_le this (by omega)
                rw [ih1 _ _ _ _ c' _ hd ha1]
                simp only [Res.bind_ok]
                have e : p1 = p + (p1 - p) := by omega
                have ha2 : agree (q - p1) c p1 c' (p' + (p0 - p) + (p1 - p0)) := by
                  have := agree_drop (k := p1 - p) ha
                  rw [← e] at this
                  have e3 : p' + (p0 - p) + (p1 - p0) = p' + (p1 - p) := by omega
                  rw [e3]
                  exact agree_le this (by omega)
                rw [ih3 _ _ _ _ _ c' _ h ha2]
                congr 2; omega
              | err e => rw [hd] at h; cases h
              | panic => rw [hd] at h; cases h
              | hang => rw [hd] at h; cases h
            · cases h
          | err e => rw [hs] at h; cases h
          | panic => rw [hs] at h; cases h
          | hang => rw [hs] at h; cases h

end Decoder
end RustBit
