/-
A valid document never makes the decoder panic, whatever it holds and whatever follows.
-/
import Verif.Proofs.Faulty

namespace RustBit
open Spec Decoder

theorem parseString_isStr_cases {s bs c rest : Bytes} {p : Nat} (h : IsStr s bs) (e : c.drop p = bs ++ rest) :
    parseString c p = .ok (s, p + bs.length) ∨ ∃ x, parseString c p = .err x := by
  by_cases hl : s.length < 2 ^ 64
  · exact .inl (parseString_of_isStr h hl e)
  · obtain ⟨ds, hd, rfl⟩ := h
    refine .inr ⟨.badNumberDecode ds, parseString_faulty.mpr ⟨ds, ⟨58, s ++ rest, by rw [e]; simp, isDigit_of_isDecimal hd, by decide, .inr ?_⟩, rfl⟩⟩
    rw [hd.denotes]
    omega

theorem parseString_refuses {c : Bytes} {p : Nat} {b : UInt8} {t : Bytes} (e : c.drop p = b :: t) (hb : isDigit b = false) :
    parseString c p = .err (.badNumberDecode []) :=
  parseString_faulty.mpr ⟨[], ⟨b, t, by rw [e]; rfl, by simp, hb, .inl rfl⟩, rfl⟩

theorem parseInteger_isInt_cases {i : Int} {bs c rest : Bytes} {p : Nat} (h : IsInt i bs) (e : c.drop p = 105 :: (bs ++ 101 :: rest)) :
    (∃ n, parseInteger c p = .ok (.integer n, p + bs.length + 2)) ∨ ∃ x, parseInteger c p = .err x := by
  have e1 : c.drop (p + 1) = bs ++ 101 :: rest := drop_succ e
  cases h with
  | neg hn hd => exact .inr ⟨_, parseInteger_faulty.mpr ⟨[], ⟨45, _, e1, by simp, by decide, .inl rfl⟩, rfl⟩⟩
  | nonneg hd =>
    by_cases hl : value bs < 2 ^ 64
    · exact .inl ⟨value bs, parseInteger_ok.mpr ⟨_, p + 1 + bs.length, getConsecutiveDigits_ok.mpr
        ⟨bs, 101, rest, e1, hd.nonempty, isDigit_of_isDecimal hd, by decide, rfl, hl, rfl⟩, rfl, by omega⟩⟩
    · exact .inr ⟨_, parseInteger_faulty.mpr ⟨bs, ⟨101, rest, e1, isDigit_of_isDecimal hd, by decide, .inr (by omega)⟩, rfl⟩⟩

/-- No panic; a result ends at one of the positions in `P`. -/
def Safe {α : Type} (r : Res DecoderError (α × Nat)) (P : Nat → Prop) : Prop :=
  r ≠ .panic ∧ ∀ v q, r = .ok (v, q) → P q

theorem safe_err {α : Type} (x : DecoderError) (P : Nat → Prop) : Safe (.err x : Res DecoderError (α × Nat)) P := by
  simp [Safe]

theorem safe_hang {α : Type} (P : Nat → Prop) : Safe (.hang : Res DecoderError (α × Nat)) P := by
  simp [Safe]

theorem safe_ok {α : Type} {v : α} {q : Nat} {P : Nat → Prop} (h : P q) : Safe (.ok (v, q) : Res DecoderError (α × Nat)) P := by
  refine ⟨by simp, ?_⟩
  intro v' q' e
  cases e
  exact h

theorem safe_bind {α β : Type} {r : Res DecoderError (α × Nat)} {P Q : Nat → Prop} {k : α × Nat → Res DecoderError (β × Nat)}
    (h : Safe r P) (hk : ∀ v q, P q → Safe (k (v, q)) Q) : Safe (r >>= k) Q := by
  obtain ⟨h1, h2⟩ := h
  cases r with
  | ok x => obtain ⟨v, q⟩ := x; exact hk v q (h2 v q rfl)
  | err e => exact safe_err e Q
  | panic => exact absurd rfl h1
  | hang => exact safe_hang Q

theorem isDecimal_zero {n : Nat} {d : UInt8} {t : Bytes} (h : IsDecimal n (d :: t)) (hd : ¬ (49 ≤ d && d ≤ 57) = true) : d = 48 ∧ t = [] ∧ n = 0 := by
  have h1 := h.digits d (by simp)
  have hd48 : d = 48 := by
    apply UInt8.toNat_inj.mp
    simp only [Bool.and_eq_true, decide_eq_true_eq, UInt8.le_iff_toNat_le, not_and] at hd
    have e1 : (49 : UInt8).toNat = 49 := rfl
    have e2 : (57 : UInt8).toNat = 57 := rfl
    have e3 : (48 : UInt8).toNat = 48 := rfl
    omega
  subst hd48
  have := h.noLeadingZero rfl
  simp only [List.cons.injEq, true_and] at this
  subst this
  exact ⟨rfl, rfl, h.denotes.symm⟩

theorem isStr_empty {s : Bytes} {b : UInt8} {t : Bytes} (h : IsStr s (b :: t)) (hd : ¬ (49 ≤ b && b ≤ 57) = true) : s = [] := by
  obtain ⟨ds, hds, e⟩ := h
  cases ds with
  | nil => exact absurd rfl hds.nonempty
  | cons d t' =>
    simp only [List.cons_append, List.cons.injEq] at e
    obtain ⟨rfl, _⟩ := e
    exact List.length_eq_zero_iff.mp (isDecimal_zero hds hd).2.2

/-- Where decoding of a document can end: behind it, or (empty strings) before it. -/
def EndsAt (v : BVal) (p n q : Nat) : Prop := q = p + n ∨ (v = .str [] ∧ q = p)

theorem valid_safe (f : Nat) :
    (∀ c p v bs rest, IsBencode v bs → c.drop p = bs ++ rest → Safe (decodeF f c p) (EndsAt v p bs.length)) ∧
    (∀ c p acc l bs rest, IsElems l bs → c.drop p = bs ++ 101 :: rest →
      Safe (listLoop f c p acc) (· = p + bs.length + 1)) ∧
    (∀ c p acc d bs rest, IsEntries d bs → c.drop p = bs ++ 101 :: rest →
      Safe (dictLoop f c p acc) (· = p + bs.length + 1)) ∧
    (∀ c p acc v vb d bs rest, IsBencode v vb → IsEntries d bs → c.drop p = vb ++ (bs ++ 101 :: rest) →
      Safe (dictLoop f c p acc) (· = p + vb.length + bs.length + 1)) := by
  induction f with
  | zero => refine ⟨?_, ?_, ?_, ?_⟩ <;> intros <;> simp [Safe, decodeF, listLoop, dictLoop]
  | succ f ih =>
    obtain ⟨ih1, ih2, ih3, ih4⟩ := ih
    have key : ∀ c p acc s ks t, IsStr s ks → c.drop p = ks ++ t → ∀ Q,
        (∀ acc' : Metainfo → List (Bytes × Metainfo), Safe (decodeF f c (p + ks.length) >>= fun x => dictLoop f c x.2 (acc' x.1)) Q) → Safe (dictLoop (f + 1) c p acc) Q := by
      intro c p acc s ks t hs e Q hQ
      obtain ⟨b, t', hb, hdig, h101⟩ := isStr_head hs
      rw [dictLoop, getElem?_of_drop (b := b) (t := t' ++ t) (by rw [e, hb]; rfl)]
      simp only [h101, if_false]
      rcases parseString_isStr_cases hs e with h | ⟨x, h⟩
      · rw [h, Res.bind_ok]
        simp only []
        split
        · exact hQ (mapInsert acc s)
        · exact safe_err _ _
      · rw [h]; exact safe_err _ _
    refine ⟨?_, ?_, ?_, ?_⟩
    · intro c p v bs rest h e
      cases h with
      | int hi =>
        rename_i i bs
        rw [decodeF, getElem?_of_drop (b := 105) (t := bs ++ [101] ++ rest) (by simpa using e)]
        simp only [if_true]
        rcases parseInteger_isInt_cases hi (rest := rest) (by simpa using e) with ⟨n, h⟩ | ⟨x, h⟩ <;> rw [h]
        · exact safe_ok (.inl (by simp; omega))
        · exact safe_err _ _
      | str hs =>
        rename_i s
        obtain ⟨b, t, rfl, hdig, h101⟩ := isStr_head hs
        rw [decodeF, getElem?_of_drop (b := b) (t := t ++ rest) (by simpa using e)]
        have hne : b ≠ 105 ∧ b ≠ 108 ∧ b ≠ 100 := by
          refine ⟨?_, ?_, ?_⟩ <;> rintro rfl <;> exact absurd hdig (by decide)
        simp only [hne.1, hne.2.1, hne.2.2, if_false]
        split
        · rcases parseString_isStr_cases hs e with h | ⟨x, h⟩ <;> rw [h]
          · exact safe_ok (.inl rfl)
          · exact safe_err _ _
        · rename_i hz
          exact safe_ok (.inr ⟨by rw [isStr_empty hs hz], rfl⟩)
      | list hl =>
        rename_i l bs
        have e0 : c.drop p = 108 :: (bs ++ 101 :: rest) := by simpa using e
        rw [decodeF, getElem?_of_drop e0]
        refine ⟨(ih2 c (p + 1) [] l bs rest hl (drop_succ e0)).1, fun v q hq => .inl ?_⟩
        have := (ih2 c (p + 1) [] l bs rest hl (drop_succ e0)).2 v q hq
        simp; omega
      | dict hd =>
        rename_i d bs
        have e0 : c.drop p = 100 :: (bs ++ 101 :: rest) := by simpa using e
        rw [decodeF, getElem?_of_drop e0]
        refine ⟨(ih3 c (p + 1) [] d bs rest hd (drop_succ e0)).1, fun v q hq => .inl ?_⟩
        have := (ih3 c (p + 1) [] d bs rest hd (drop_succ e0)).2 v q hq
        simp; omega
    · intro c p acc l bs rest h e
      cases h with
      | nil =>
        rw [listLoop, getElem?_of_drop (by simpa using e)]
        exact safe_ok rfl
      | cons hv hl =>
        rename_i v l vb bs'
        obtain ⟨b, t, hb, h101, _⟩ := isBencode_head hv
        have e0 : c.drop p = vb ++ (bs' ++ 101 :: rest) := by simpa using e
        rw [listLoop, getElem?_of_drop (b := b) (t := t ++ (bs' ++ 101 :: rest)) (by rw [e0, hb]; rfl)]
        simp only [h101, if_false]
        refine safe_bind (ih1 c p v vb _ hv e0) ?_
        rintro m q (rfl | ⟨_, rfl⟩)
        · have := ih2 c (p + vb.length) (acc ++ [m]) l bs' rest hl (drop_add e0)
          simpa [Nat.add_assoc] using this
        · exact ih2 c q (acc ++ [m]) (v :: l) (vb ++ bs') rest (.cons hv hl) e
    · intro c p acc d bs rest h e
      cases h with
      | nil =>
        rw [dictLoop, getElem?_of_drop (by simpa using e)]
        exact safe_ok rfl
      | cons hs hv hd =>
        rename_i k v d ks vb bs'
        have e0 : c.drop p = ks ++ (vb ++ (bs' ++ 101 :: rest)) := by simpa using e
        refine key c p acc k ks _ hs e0 _ fun acc' => ?_
        have e1 := drop_add e0
        refine safe_bind (ih1 c _ v vb _ hv e1) ?_
        rintro m q (rfl | ⟨_, rfl⟩)
        · have := ih3 c (p + ks.length + vb.length) (acc' m) d bs' rest hd (drop_add e1)
          simpa [Nat.add_assoc] using this
        · have := ih4 c (p + ks.length) (acc' m) v vb d bs' rest hv hd e1
          simpa [Nat.add_assoc] using this
    · intro c p acc v vb d bs rest hv hd e
      have refuse : ∀ b t, vb = b :: t → isDigit b = false → b ≠ 101 →
          Safe (dictLoop (f + 1) c p acc) (· = p + vb.length + bs.length + 1) := by
        rintro b t rfl hb h101
        rw [dictLoop, getElem?_of_drop (b := b) (t := t ++ (bs ++ 101 :: rest)) (by simpa using e)]
        simp only [h101, if_false]
        rw [parseString_refuses (by simpa using e) hb]
        exact safe_err _ _
      cases hv with
      | int hi => exact refuse 105 _ rfl (by decide) (by decide)
      | list hi => exact refuse 108 _ rfl (by decide) (by decide)
      | dict hi => exact refuse 100 _ rfl (by decide) (by decide)
      | str hs =>
        rename_i s
        refine key c p acc s vb _ hs e _ fun acc' => ?_
        have e1 := drop_add e
        cases hd with
        | nil =>
          have e2 : c.drop (p + vb.length) = 101 :: rest := by simpa using e1
          cases f with
          | zero => exact safe_hang _
          | succ f =>
            rw [decodeF_noValue (by simp [noValueAt, getElem?_of_drop e2])]
            exact ih3 c (p + vb.length) (acc' .nothing) [] [] rest .nil (by simpa using e2)
        | cons hs' hv' hd' =>
          rename_i k' v' d' ks' vb' bs'
          have e2 : c.drop (p + vb.length) = ks' ++ (vb' ++ (bs' ++ 101 :: rest)) := by simpa using e1
          refine safe_bind (ih1 c _ (.str k') ks' _ (.str hs') e2) ?_
          rintro m q (rfl | ⟨_, rfl⟩)
          · have := ih4 c (p + vb.length + ks'.length) (acc' m) v' vb' d' bs' rest hv' hd' (drop_add e2)
            simpa [Nat.add_assoc] using this
          · have := ih3 c (p + vb.length) (acc' m) _ _ rest (.cons hs' hv' hd') (by simpa using e1)
            simpa [Nat.add_assoc] using this

/-- A valid document with anything behind it is not cut short. -/
theorem valid_not_cut {v : BVal} {doc : Bytes} (h : IsBencode v doc) (rest : Bytes) : ¬ Cut (doc ++ rest) := by
  intro hc
  obtain ⟨f, hf⟩ := panic_of_cut hc (doc ++ rest) 0 (by simp)
  exact ((valid_safe f).1 (doc ++ rest) 0 v doc rest h (by simp)).1 hf

end RustBit
