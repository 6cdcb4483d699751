/-
Lemmas about the JSON model: the fuel suffices, a parsed value does not depend on what follows it, and what is written is
read back.
-/
import Verif.Model.Cache
import Verif.Proofs.Tracker

namespace RustBit
open Json

/-! ### Consumption -/

theorem readChar_some {c : UInt8} {s r : Bytes} (h : readChar c s = some r) : s = c :: r := by
  cases s with
  | nil => cases h
  | cons b t =>
    simp only [readChar] at h
    split at h
    · rename_i hb; subst hb; rw [Option.some.inj h]
    · cases h

theorem skipWs_length (s : Bytes) : (skipWs s).length ≤ s.length := by
  unfold skipWs
  induction s with
  | nil => simp
  | cons b t ih => rw [List.dropWhile_cons]; split <;> simp <;> omega

theorem pUnits_length : ∀ (n : Nat) (s : Bytes), s.length ≤ n → ∀ u r, pUnits s = some (u, r) → r.length < s.length := by
  intro n
  induction n with
  | zero => intro s hs u r h; cases s with | nil => simp [pUnits] at h | cons => simp at hs
  | succ n ih =>
    intro s hs u r h
    cases s with
    | nil => simp [pUnits] at h
    | cons b t =>
      simp only [List.length_cons] at hs ⊢
      unfold pUnits at h
      split at h
      · simp only [Option.some.injEq, Prod.mk.injEq] at h; rw [← h.2]; omega
      split at h
      · split at h
        · cases h
        · rename_i e t1
          simp only [List.length_cons] at hs ⊢
          split at h
          · split at h
            · rename_i a b c d t2
              simp only [List.length_cons] at hs ⊢
              split at h
              · cases h
              · obtain ⟨x, hx, h⟩ := Option.map_eq_some_iff.mp h
                simp only [Prod.mk.injEq] at h
                have := ih t2 (by omega) _ _ hx
                rw [← h.2]; omega
            · cases h
          · split at h
            · obtain ⟨x, hx, h⟩ := Option.map_eq_some_iff.mp h
              simp only [Prod.mk.injEq] at h
              have := ih t1 (by omega) _ _ hx
              rw [← h.2]; omega
            · cases h
      split at h
      · cases h
      · obtain ⟨x, hx, h⟩ := Option.map_eq_some_iff.mp h
        simp only [Prod.mk.injEq] at h
        have := ih t (by omega) _ _ hx
        rw [← h.2]; omega

theorem pStr_length {s : Bytes} {u : Option Bytes} {r : Bytes} (h : pStr s = some (u, r)) : r.length < s.length := by
  unfold pStr at h
  obtain ⟨x, hx, h⟩ := Option.map_eq_some_iff.mp h
  simp only [Prod.mk.injEq] at h
  rw [← h.2]
  exact pUnits_length _ s (Nat.le_refl _) _ _ hx

theorem pDigits_some {s d r : Bytes} (h : pDigits s = some (d, r)) :
    s.takeWhile isDigit = d ∧ s.dropWhile isDigit = r ∧ d ≠ [] := by
  unfold pDigits at h
  split at h
  · cases h
  · rename_i hn
    simp only [Option.some.injEq, Prod.mk.injEq] at h
    exact ⟨h.1, h.2, h.1 ▸ hn⟩

theorem pDigits_length {s d r : Bytes} (h : pDigits s = some (d, r)) : r.length < s.length := by
  obtain ⟨h1, h2, h3⟩ := pDigits_some h
  have := congrArg List.length (List.takeWhile_append_dropWhile (p := isDigit) (l := s))
  rw [List.length_append, h1, h2] at this
  have := List.length_pos_iff.mpr h3
  omega

theorem readChar_length {c : UInt8} {s r : Bytes} (h : readChar c s = some r) : r.length < s.length := by
  rw [readChar_some h]; simp

theorem pFrac_length {s r : Bytes} {b : Bool} (h : pFrac s = some (b, r)) : r.length ≤ s.length := by
  unfold pFrac at h
  split at h
  · simp only [Option.some.injEq, Prod.mk.injEq] at h; rw [h.2]; exact Nat.le_refl _
  · rename_i r' hr
    obtain ⟨x, hx, h⟩ := Option.map_eq_some_iff.mp h
    simp only [Prod.mk.injEq] at h
    have h1 := readChar_length hr
    have h2 := pDigits_length (d := x.1) (r := x.2) hx
    rw [← h.2]; omega

theorem or_readChar_length {c d : UInt8} {s r : Bytes} (h : (readChar c s).or (readChar d s) = some r) : r.length < s.length := by
  rw [Option.or_eq_some_iff] at h
  rcases h with h | ⟨-, h⟩ <;> exact readChar_length h

theorem pExp_length {s r : Bytes} {b : Bool} (h : pExp s = some (b, r)) : r.length ≤ s.length := by
  unfold pExp at h
  split at h
  · simp only [Option.some.injEq, Prod.mk.injEq] at h; rw [h.2]; exact Nat.le_refl _
  · rename_i r' hr
    obtain ⟨x, hx, h⟩ := Option.map_eq_some_iff.mp h
    simp only [Prod.mk.injEq] at h
    have h1 := or_readChar_length hr
    have h2 := pDigits_length (d := x.1) (r := x.2) hx
    have h3 : (((readChar 43 r').or (readChar 45 r')).getD r').length ≤ r'.length := by
      cases ho : (readChar 43 r').or (readChar 45 r') with
      | none => simp
      | some y => exact Nat.le_of_lt (or_readChar_length ho)
    rw [← h.2]; omega

theorem pUnsigned_length {s r : Bytes} {n : Option Nat} (h : pUnsigned s = some (n, r)) : r.length < s.length := by
  unfold pUnsigned at h
  simp only [Option.bind_eq_bind, Option.bind_eq_some_iff] at h
  obtain ⟨⟨d, r1⟩, h1, h⟩ := h
  split at h
  · cases h
  · obtain ⟨⟨b, r2⟩, h2, h⟩ := Option.bind_eq_some_iff.mp h
    obtain ⟨⟨b', r3⟩, h3, h⟩ := Option.bind_eq_some_iff.mp h
    simp only [Option.some.injEq, Prod.mk.injEq] at h
    have : r1.length < s.length := pDigits_length h1
    have : r2.length ≤ r1.length := pFrac_length h2
    have : r3.length ≤ r2.length := pExp_length h3
    rw [← h.2]; omega

theorem pNum_length {s r : Bytes} {v : Json} (h : pNum s = some (v, r)) : r.length < s.length := by
  unfold pNum at h
  split at h
  · rename_i r' hr
    obtain ⟨x, hx, h⟩ := Option.map_eq_some_iff.mp h
    simp only [Prod.mk.injEq] at h
    have h1 := readChar_length hr
    have h2 := pUnsigned_length (n := x.1) (r := x.2) hx
    rw [← h.2]; omega
  · obtain ⟨x, hx, h⟩ := Option.map_eq_some_iff.mp h
    simp only [Prod.mk.injEq] at h
    have h2 := pUnsigned_length (n := x.1) (r := x.2) hx
    rw [← h.2]; omega

theorem pLit_length {l s r : Bytes} {v w : Json} (h : pLit l v s = some (w, r)) : r.length ≤ s.length := by
  unfold pLit at h
  split at h
  · simp only [Option.some.injEq, Prod.mk.injEq] at h; rw [← h.2, List.length_drop]; omega
  · cases h

theorem parse_length (f : Nat) :
    (∀ s v r, pVal f s = some (v, r) → r.length < s.length) ∧
    (∀ s v r, pElems f s = some (v, r) → r.length < s.length) ∧
    (∀ s v r, pMembers f s = some (v, r) → r.length < s.length) := by
  induction f with
  | zero => simp [pVal, pElems, pMembers]
  | succ f ih =>
    obtain ⟨ihV, ihE, ihM⟩ := ih
    refine ⟨?_, ?_, ?_⟩
    · intro s v r h
      cases s with
      | nil => simp [pVal] at h
      | cons b t =>
        have hw := skipWs_length t
        simp only [List.length_cons]
        unfold pVal at h
        split at h
        · obtain ⟨x, hx, h⟩ := Option.map_eq_some_iff.mp h
          simp only [Prod.mk.injEq] at h
          have := pStr_length (u := x.1) (r := x.2) hx
          rw [← h.2]; omega
        split at h
        · split at h
          · rename_i r' hr
            have := readChar_length hr
            simp only [Option.some.injEq, Prod.mk.injEq] at h; rw [← h.2]; omega
          · obtain ⟨x, hx, h⟩ := Option.map_eq_some_iff.mp h
            simp only [Prod.mk.injEq] at h
            have := ihE _ x.1 x.2 hx
            rw [← h.2]; omega
        split at h
        · split at h
          · rename_i r' hr
            have := readChar_length hr
            simp only [Option.some.injEq, Prod.mk.injEq] at h; rw [← h.2]; omega
          · obtain ⟨x, hx, h⟩ := Option.map_eq_some_iff.mp h
            simp only [Prod.mk.injEq] at h
            have := ihM _ x.1 x.2 hx
            rw [← h.2]; omega
        split at h
        · have := pLit_length h; omega
        split at h
        · have := pLit_length h; omega
        split at h
        · have := pLit_length h; omega
        · have := pNum_length h; simpa using this
    · intro s v r h
      unfold pElems at h
      split at h
      · cases h
      · rename_i w r1 h1
        have := ihV _ _ _ h1
        have hw := skipWs_length r1
        split at h
        · rename_i r2 h2
          have := readChar_length h2
          simp only [Option.some.injEq, Prod.mk.injEq] at h; rw [← h.2]; omega
        · split at h
          · rename_i r2 h2
            have := readChar_length h2
            have := skipWs_length r2
            obtain ⟨x, hx, h⟩ := Option.map_eq_some_iff.mp h
            simp only [Prod.mk.injEq] at h
            have := ihE _ x.1 x.2 hx
            rw [← h.2]; omega
          · cases h
    · intro s v r h
      unfold pMembers at h
      split at h
      · cases h
      · rename_i k r0 h0
        obtain ⟨r9, h9, h0⟩ := Option.bind_eq_some_iff.mp h0
        have := readChar_length h9
        have := pStr_length h0
        have hw := skipWs_length r0
        split at h
        · cases h
        · rename_i r1 h1
          have := readChar_length h1
          have := skipWs_length r1
          split at h
          · cases h
          · rename_i w r2 h2
            have := ihV _ _ _ h2
            have hw := skipWs_length r2
            split at h
            · rename_i r3 h3
              have := readChar_length h3
              simp only [Option.some.injEq, Prod.mk.injEq] at h; rw [← h.2]; omega
            · split at h
              · rename_i r3 h3
                have := readChar_length h3
                have := skipWs_length r3
                obtain ⟨x, hx, h⟩ := Option.map_eq_some_iff.mp h
                simp only [Prod.mk.injEq] at h
                have := ihM _ x.1 x.2 hx
                rw [← h.2]; omega
              · cases h

/-! ### Fuel -/

theorem parse_fuel (n : Nat) :
    (∀ s f g, s.length ≤ n → 2 * n + 1 ≤ f → 2 * n + 1 ≤ g → pVal f s = pVal g s) ∧
    (∀ s f g, s.length ≤ n → 2 * n + 2 ≤ f → 2 * n + 2 ≤ g → pElems f s = pElems g s) ∧
    (∀ s f g, s.length ≤ n → 2 * n + 2 ≤ f → 2 * n + 2 ≤ g → pMembers f s = pMembers g s) := by
  induction n with
  | zero =>
    refine ⟨?_, ?_, ?_⟩
    · intro s f g hs hf hg
      obtain ⟨f, rfl⟩ := Nat.exists_eq_add_of_lt hf
      obtain ⟨g, rfl⟩ := Nat.exists_eq_add_of_lt hg
      cases s with
      | nil => simp [pVal]
      | cons => simp at hs
    · intro s f g hs hf hg
      obtain ⟨f, rfl⟩ := Nat.exists_eq_add_of_le hf
      obtain ⟨g, rfl⟩ := Nat.exists_eq_add_of_le hg
      cases s with
      | nil => simp [Nat.add_comm _ f, Nat.add_comm _ g, pElems, pVal]
      | cons => simp at hs
    · intro s f g hs hf hg
      obtain ⟨f, rfl⟩ := Nat.exists_eq_add_of_le hf
      obtain ⟨g, rfl⟩ := Nat.exists_eq_add_of_le hg
      cases s with
      | nil => simp [Nat.add_comm _ f, Nat.add_comm _ g, pMembers, readChar]
      | cons => simp at hs
  | succ n ih =>
    obtain ⟨ihV, ihE, ihM⟩ := ih
    have V : ∀ s f g, s.length ≤ n + 1 → 2 * (n + 1) + 1 ≤ f → 2 * (n + 1) + 1 ≤ g → pVal f s = pVal g s := by
      intro s f g hs hf hg
      obtain ⟨f, rfl⟩ := Nat.exists_eq_add_of_le (by omega : 1 ≤ f)
      obtain ⟨g, rfl⟩ := Nat.exists_eq_add_of_le (by omega : 1 ≤ g)
      rw [Nat.add_comm 1 f, Nat.add_comm 1 g]
      cases s with
      | nil => simp [pVal]
      | cons b t =>
        simp only [List.length_cons] at hs
        have hw := skipWs_length t
        unfold pVal
        rw [ihE (skipWs t) f g (by omega) (by omega) (by omega), ihM (skipWs t) f g (by omega) (by omega) (by omega)]
    refine ⟨V, ?_, ?_⟩
    · intro s f g hs hf hg
      obtain ⟨f, rfl⟩ := Nat.exists_eq_add_of_le (by omega : 1 ≤ f)
      obtain ⟨g, rfl⟩ := Nat.exists_eq_add_of_le (by omega : 1 ≤ g)
      rw [Nat.add_comm 1 f, Nat.add_comm 1 g]
      unfold pElems
      rw [V s f g hs (by omega) (by omega)]
      cases h : pVal g s with
      | none => rfl
      | some x =>
        obtain ⟨v, r⟩ := x
        have h1 := (parse_length g).1 _ _ _ h
        have h2 := skipWs_length r
        simp only []
        cases h3 : readChar 93 (skipWs r) with
        | some _ => rfl
        | none =>
          simp only []
          cases h4 : readChar 44 (skipWs r) with
          | none => rfl
          | some r' =>
            have h5 := readChar_length h4
            have h6 := skipWs_length r'
            simp only []
            rw [ihE (skipWs r') f g (by omega) (by omega) (by omega)]
    · intro s f g hs hf hg
      obtain ⟨f, rfl⟩ := Nat.exists_eq_add_of_le (by omega : 1 ≤ f)
      obtain ⟨g, rfl⟩ := Nat.exists_eq_add_of_le (by omega : 1 ≤ g)
      rw [Nat.add_comm 1 f, Nat.add_comm 1 g]
      unfold pMembers
      cases h0 : (readChar 34 s).bind pStr with
      | none => rfl
      | some x =>
        obtain ⟨k, r0⟩ := x
        obtain ⟨r9, h9, h0⟩ := Option.bind_eq_some_iff.mp h0
        have := readChar_length h9
        have := pStr_length h0
        have hw := skipWs_length r0
        simp only []
        cases h1 : readChar 58 (skipWs r0) with
        | none => rfl
        | some r1 =>
          have := readChar_length h1
          have := skipWs_length r1
          simp only []
          rw [V (skipWs r1) f g (by omega) (by omega) (by omega)]
          cases h : pVal g (skipWs r1) with
          | none => rfl
          | some x =>
            obtain ⟨v, r⟩ := x
            have h1 := (parse_length g).1 _ _ _ h
            have h2 := skipWs_length r
            simp only []
            cases h3 : readChar 125 (skipWs r) with
            | some _ => rfl
            | none =>
              simp only []
              cases h4 : readChar 44 (skipWs r) with
              | none => rfl
              | some r' =>
                have h5 := readChar_length h4
                have h6 := skipWs_length r'
                simp only []
                rw [ihM (skipWs r') f g (by omega) (by omega) (by omega)]

/-- The fuel used by `parse` decides every document. -/
theorem pVal_fuel (s : Bytes) (f : Nat) (h : 2 * s.length + 2 ≤ f) : pVal f (skipWs s) = pVal (2 * s.length + 2) (skipWs s) :=
  (parse_fuel s.length).1 _ _ _ (skipWs_length s) (by omega) (by omega)

/-! ### A value does not depend on what follows it -/

theorem readChar_append {c : UInt8} {s r : Bytes} (t : Bytes) (h : readChar c s = some r) : readChar c (s ++ t) = some (r ++ t) := by
  rw [readChar_some h]; simp [readChar]

theorem readChar_none_append {c : UInt8} {s : Bytes} (t : Bytes) (hs : s ≠ []) (h : readChar c s = none) : readChar c (s ++ t) = none := by
  cases s with
  | nil => exact absurd rfl hs
  | cons b u =>
    simp only [readChar, List.cons_append] at h ⊢
    split at h
    · cases h
    · rw [if_neg (by assumption)]

theorem dropWhile_append {α : Type} {p : α → Bool} {s : List α} (t : List α) (h : s.dropWhile p ≠ []) :
    (s ++ t).dropWhile p = s.dropWhile p ++ t ∧ (s ++ t).takeWhile p = s.takeWhile p := by
  induction s with
  | nil => exact absurd rfl h
  | cons b u ih =>
    rw [List.dropWhile_cons] at h
    rw [List.cons_append, List.dropWhile_cons, List.dropWhile_cons, List.takeWhile_cons, List.takeWhile_cons]
    split
    · rename_i hb
      rw [if_pos hb] at h
      rw [(ih h).1, (ih h).2]; exact ⟨rfl, rfl⟩
    · exact ⟨rfl, rfl⟩

theorem skipWs_append {s : Bytes} (t : Bytes) (h : skipWs s ≠ []) : skipWs (s ++ t) = skipWs s ++ t :=
  (dropWhile_append t h).1

theorem pUnits_append (t : Bytes) : ∀ (n : Nat) (s : Bytes), s.length ≤ n → ∀ u r, pUnits s = some (u, r) →
    pUnits (s ++ t) = some (u, r ++ t) := by
  intro n
  induction n with
  | zero => intro s hs u r h; cases s with | nil => simp [pUnits] at h | cons => simp at hs
  | succ n ih =>
    intro s hs u r h
    cases s with
    | nil => simp [pUnits] at h
    | cons b s =>
      simp only [List.length_cons] at hs
      unfold pUnits at h
      rw [List.cons_append]
      unfold pUnits
      split at h
      · rw [if_pos (by assumption)]
        simp only [Option.some.injEq, Prod.mk.injEq] at h ⊢; rw [h.2]; exact ⟨h.1, rfl⟩
      rw [if_neg (by assumption)]
      split at h
      · rw [if_pos (by assumption)]
        cases s with
        | nil => cases h
        | cons e s =>
          simp only [List.length_cons] at hs
          simp only [List.cons_append] at h ⊢
          split at h
          · rw [if_pos (by assumption)]
            match s, h with
            | a :: b :: c :: d :: s, h =>
              simp only [List.length_cons] at hs
              simp only [List.cons_append] at h ⊢
              cases hx : hex4 a b c d with
              | none => rw [hx] at h; cases h
              | some m =>
                rw [hx] at h
                simp only [] at h ⊢
                obtain ⟨x, hx, h⟩ := Option.map_eq_some_iff.mp h
                simp only [Prod.mk.injEq] at h
                rw [ih s (by omega) x.1 x.2 hx, Option.map_some, ← h.1, ← h.2]
          · rw [if_neg (by assumption)]
            cases hx : simpleEscape e with
            | none => rw [hx] at h; cases h
            | some m =>
              rw [hx] at h
              simp only [] at h ⊢
              obtain ⟨x, hx, h⟩ := Option.map_eq_some_iff.mp h
              simp only [Prod.mk.injEq] at h
              rw [ih s (by omega) x.1 x.2 hx, Option.map_some, ← h.1, ← h.2]
      rw [if_neg (by assumption)]
      split at h
      · cases h
      · rw [if_neg (by assumption)]
        obtain ⟨x, hx, h⟩ := Option.map_eq_some_iff.mp h
        simp only [Prod.mk.injEq] at h
        rw [ih s (by omega) x.1 x.2 hx, Option.map_some, ← h.1, ← h.2]

theorem pStr_append {s : Bytes} {u : Option Bytes} {r : Bytes} (t : Bytes) (h : pStr s = some (u, r)) :
    pStr (s ++ t) = some (u, r ++ t) := by
  unfold pStr at h ⊢
  obtain ⟨x, hx, h⟩ := Option.map_eq_some_iff.mp h
  simp only [Prod.mk.injEq] at h
  rw [pUnits_append t _ s (Nat.le_refl _) x.1 x.2 hx, Option.map_some, ← h.1, ← h.2]

theorem pDigits_append {s d r : Bytes} (t : Bytes) (h : pDigits s = some (d, r)) (hr : r ≠ []) :
    pDigits (s ++ t) = some (d, r ++ t) := by
  obtain ⟨h1, h2, h3⟩ := pDigits_some h
  have := dropWhile_append (p := isDigit) (s := s) t (by rw [h2]; exact hr)
  unfold pDigits
  rw [this.1, this.2, h1, h2, if_neg h3]

theorem pFrac_append {s r : Bytes} {b : Bool} (t : Bytes) (h : pFrac s = some (b, r)) (hr : r ≠ []) :
    pFrac (s ++ t) = some (b, r ++ t) := by
  unfold pFrac at h ⊢
  split at h
  · rename_i hc
    simp only [Option.some.injEq, Prod.mk.injEq] at h
    rw [readChar_none_append t (by rw [h.2]; exact hr) hc]
    simp [h.1, h.2]
  · rename_i r' hc
    obtain ⟨x, hx, h⟩ := Option.map_eq_some_iff.mp h
    simp only [Prod.mk.injEq] at h
    rw [readChar_append t hc]
    simp only []
    rw [pDigits_append t (d := x.1) (r := x.2) hx (by rw [h.2]; exact hr), Option.map_some, h.1, h.2]

theorem or_readChar_append {c d : UInt8} {s r : Bytes} (t : Bytes) (h : (readChar c s).or (readChar d s) = some r) :
    (readChar c (s ++ t)).or (readChar d (s ++ t)) = some (r ++ t) := by
  cases s with
  | nil => cases h
  | cons b u =>
    simp only [readChar, List.cons_append] at h ⊢
    split at h
    · rw [if_pos (by assumption)]
      simp only [Option.some_or, Option.some.injEq] at h ⊢; rw [h]
    · rw [if_neg (by assumption)]
      simp only [Option.none_or] at h ⊢
      split at h
      · rw [if_pos (by assumption)]
        simp only [Option.some.injEq] at h ⊢; rw [h]
      · cases h

theorem or_readChar_none_append {c d : UInt8} {s : Bytes} (t : Bytes) (hs : s ≠ []) (h : (readChar c s).or (readChar d s) = none) :
    (readChar c (s ++ t)).or (readChar d (s ++ t)) = none := by
  rw [Option.or_eq_none_iff] at h ⊢
  exact ⟨readChar_none_append t hs h.1, readChar_none_append t hs h.2⟩

theorem pExp_append {s r : Bytes} {b : Bool} (t : Bytes) (h : pExp s = some (b, r)) (hr : r ≠ []) :
    pExp (s ++ t) = some (b, r ++ t) := by
  unfold pExp at h ⊢
  split at h
  · rename_i hc
    simp only [Option.some.injEq, Prod.mk.injEq] at h
    rw [or_readChar_none_append t (by rw [h.2]; exact hr) hc]
    simp [h.1, h.2]
  · rename_i r' hc
    obtain ⟨x, hx, h⟩ := Option.map_eq_some_iff.mp h
    simp only [Prod.mk.injEq] at h
    rw [or_readChar_append t hc]
    simp only []
    have hr' : r' ≠ [] := by
      intro e
      subst e
      simp [readChar, pDigits] at hx
    have : ((readChar 43 (r' ++ t)).or (readChar 45 (r' ++ t))).getD (r' ++ t) =
        ((readChar 43 r').or (readChar 45 r')).getD r' ++ t := by
      cases ho : (readChar 43 r').or (readChar 45 r') with
      | none => rw [or_readChar_none_append t hr' ho]; rfl
      | some y => rw [or_readChar_append t ho]; rfl
    rw [this, pDigits_append t (d := x.1) (r := x.2) hx (by rw [h.2]; exact hr), Option.map_some, h.1, h.2]

theorem pUnsigned_append {s r : Bytes} {n : Option Nat} (t : Bytes) (h : pUnsigned s = some (n, r)) (hr : r ≠ []) :
    pUnsigned (s ++ t) = some (n, r ++ t) := by
  unfold pUnsigned at h ⊢
  simp only [Option.bind_eq_bind, Option.bind_eq_some_iff] at h
  obtain ⟨⟨d, r1⟩, h1, h⟩ := h
  split at h
  · cases h
  · rename_i hz
    obtain ⟨⟨b, r2⟩, h2, h⟩ := Option.bind_eq_some_iff.mp h
    obtain ⟨⟨b', r3⟩, h3, h⟩ := Option.bind_eq_some_iff.mp h
    simp only [Option.some.injEq, Prod.mk.injEq] at h
    have e3 : r3 = r := h.2
    have n3 : r3 ≠ [] := e3 ▸ hr
    have l3 : r3.length ≤ r2.length := pExp_length h3
    have n2 : r2 ≠ [] := by
      intro e; rw [e] at l3; exact n3 (List.length_eq_zero_iff.mp (Nat.le_zero.mp l3))
    have l2 : r2.length ≤ r1.length := pFrac_length h2
    have n1 : r1 ≠ [] := by
      intro e; rw [e] at l2; exact n2 (List.length_eq_zero_iff.mp (Nat.le_zero.mp l2))
    have a1 := pDigits_append t h1 n1
    have a2 : pFrac (r1 ++ t) = some (b, r2 ++ t) := pFrac_append t h2 n2
    have a3 : pExp (r2 ++ t) = some (b', r3 ++ t) := pExp_append t h3 n3
    simp only [Option.bind_eq_bind, a1, Option.bind_some, if_neg hz, a2, a3]
    rw [e3, ← h.1]

theorem pNum_append {s r : Bytes} {v : Json} (t : Bytes) (h : pNum s = some (v, r)) (hr : r ≠ []) :
    pNum (s ++ t) = some (v, r ++ t) := by
  unfold pNum at h ⊢
  split at h
  · rename_i r' hc
    obtain ⟨x, hx, h⟩ := Option.map_eq_some_iff.mp h
    simp only [Prod.mk.injEq] at h
    rw [readChar_append t hc]
    simp only []
    rw [pUnsigned_append t (n := x.1) (r := x.2) hx (by rw [h.2]; exact hr), Option.map_some, ← h.1, ← h.2]
  · rename_i hc
    obtain ⟨x, hx, h⟩ := Option.map_eq_some_iff.mp h
    simp only [Prod.mk.injEq] at h
    have hs : s ≠ [] := by
      intro e; subst e; simp [pUnsigned, pDigits] at hx
    rw [readChar_none_append t hs hc]
    simp only []
    rw [pUnsigned_append t (n := x.1) (r := x.2) hx (by rw [h.2]; exact hr), Option.map_some, ← h.1, ← h.2]

theorem pLit_append {l s r : Bytes} {v w : Json} (t : Bytes) (h : pLit l v s = some (w, r)) :
    pLit l v (s ++ t) = some (w, r ++ t) := by
  unfold pLit at h ⊢
  split at h
  · rename_i hp
    simp only [Option.some.injEq, Prod.mk.injEq] at h
    have hp' := List.isPrefixOf_iff_prefix.mp hp
    rw [if_pos (List.isPrefixOf_iff_prefix.mpr (hp'.trans (List.prefix_append _ _))), List.drop_append_of_le_length hp'.length_le]
    rw [h.1, h.2]
  · cases h

/-- Numbers are the only values that the next byte may continue. -/
def Json.isNum : Json → Bool
  | .num _ => true
  | _ => false

theorem pNum_isNum {s r : Bytes} {v : Json} (h : pNum s = some (v, r)) : v.isNum = true := by
  unfold pNum at h
  split at h <;>
  · obtain ⟨x, hx, h⟩ := Option.map_eq_some_iff.mp h
    simp only [Prod.mk.injEq] at h
    rw [← h.1]; rfl

theorem skipWs_ne_nil {s r : Bytes} {c : UInt8} (h : readChar c (skipWs s) = some r) : skipWs s ≠ [] := by
  rw [readChar_some h]; simp

theorem ne_nil_of_skipWs {s : Bytes} (h : skipWs s ≠ []) : s ≠ [] := by
  rintro rfl; exact h rfl

theorem parse_append (t : Bytes) (f : Nat) :
    (∀ s v r, pVal f s = some (v, r) → (v.isNum = true → r ≠ []) → pVal f (s ++ t) = some (v, r ++ t)) ∧
    (∀ s v r, pElems f s = some (v, r) → pElems f (s ++ t) = some (v, r ++ t)) ∧
    (∀ s v r, pMembers f s = some (v, r) → pMembers f (s ++ t) = some (v, r ++ t)) := by
  induction f with
  | zero => simp [pVal, pElems, pMembers]
  | succ f ih =>
    obtain ⟨ihV, ihE, ihM⟩ := ih
    refine ⟨?_, ?_, ?_⟩
    · intro s v r h hn
      cases s with
      | nil => simp [pVal] at h
      | cons b u =>
        rw [List.cons_append]
        unfold pVal at h ⊢
        split at h
        · rw [if_pos (by assumption)]
          obtain ⟨x, hx, h⟩ := Option.map_eq_some_iff.mp h
          simp only [Prod.mk.injEq] at h
          rw [pStr_append t (u := x.1) (r := x.2) hx, Option.map_some, h.1, h.2]
        rw [if_neg (by assumption)]
        split at h
        · rw [if_pos (by assumption)]
          split at h
          · rename_i r' hr
            simp only [Option.some.injEq, Prod.mk.injEq] at h
            rw [skipWs_append t (skipWs_ne_nil hr), readChar_append t hr]
            simp [h.1, h.2]
          · rename_i hr
            obtain ⟨x, hx, h⟩ := Option.map_eq_some_iff.mp h
            simp only [Prod.mk.injEq] at h
            have hne : skipWs u ≠ [] := by
              intro e
              have := (parse_length f).2.1 _ x.1 x.2 hx
              rw [e] at this; simp at this
            rw [skipWs_append t hne, readChar_none_append t hne hr]
            simp only []
            rw [ihE _ x.1 x.2 hx, Option.map_some, h.1, h.2]
        rw [if_neg (by assumption)]
        split at h
        · rw [if_pos (by assumption)]
          split at h
          · rename_i r' hr
            simp only [Option.some.injEq, Prod.mk.injEq] at h
            rw [skipWs_append t (skipWs_ne_nil hr), readChar_append t hr]
            simp [h.1, h.2]
          · rename_i hr
            obtain ⟨x, hx, h⟩ := Option.map_eq_some_iff.mp h
            simp only [Prod.mk.injEq] at h
            have hne : skipWs u ≠ [] := by
              intro e
              have := (parse_length f).2.2 _ x.1 x.2 hx
              rw [e] at this; simp at this
            rw [skipWs_append t hne, readChar_none_append t hne hr]
            simp only []
            rw [ihM _ x.1 x.2 hx, Option.map_some, h.1, h.2]
        rw [if_neg (by assumption)]
        split at h
        · rw [if_pos (by assumption)]; exact pLit_append t h
        rw [if_neg (by assumption)]
        split at h
        · rw [if_pos (by assumption)]; exact pLit_append t h
        rw [if_neg (by assumption)]
        split at h
        · rw [if_pos (by assumption)]; exact pLit_append t h
        · rw [if_neg (by assumption)]; exact pNum_append t h (hn (pNum_isNum h))
    · intro s v r h
      unfold pElems at h ⊢
      split at h
      · cases h
      · rename_i w r1 h1
        split at h
        · rename_i r2 h2
          have hne := skipWs_ne_nil h2
          simp only [Option.some.injEq, Prod.mk.injEq] at h
          rw [ihV _ _ _ h1 (fun _ => ne_nil_of_skipWs hne)]
          simp only []
          rw [skipWs_append t hne, readChar_append t h2]
          simp [h.1, h.2]
        · rename_i h2
          split at h
          · rename_i r2 h3
            have hne := skipWs_ne_nil h3
            obtain ⟨x, hx, h⟩ := Option.map_eq_some_iff.mp h
            simp only [Prod.mk.injEq] at h
            have hne2 : skipWs r2 ≠ [] := by
              intro e
              have := (parse_length f).2.1 _ x.1 x.2 hx
              rw [e] at this; simp at this
            rw [ihV _ _ _ h1 (fun _ => ne_nil_of_skipWs hne)]
            simp only []
            rw [skipWs_append t hne, readChar_none_append t hne h2, readChar_append t h3]
            simp only []
            rw [skipWs_append t hne2, ihE _ x.1 x.2 hx, Option.map_some, h.1, h.2]
          · cases h
    · intro s v r h
      unfold pMembers at h ⊢
      split at h
      · cases h
      · rename_i k r0 h0
        obtain ⟨r9, h9, h0⟩ := Option.bind_eq_some_iff.mp h0
        rw [readChar_append t h9, Option.bind_some, pStr_append t h0]
        simp only []
        split at h
        · cases h
        · rename_i r1 h1
          rw [skipWs_append t (skipWs_ne_nil h1), readChar_append t h1]
          simp only []
          split at h
          · cases h
          · rename_i w r2 h2
            have hne1 : skipWs r1 ≠ [] := by
              intro e
              have := (parse_length f).1 _ _ _ h2
              rw [e] at this; simp at this
            rw [skipWs_append t hne1]
            split at h
            · rename_i r3 h3
              have hne := skipWs_ne_nil h3
              simp only [Option.some.injEq, Prod.mk.injEq] at h
              rw [ihV _ _ _ h2 (fun _ => ne_nil_of_skipWs hne)]
              simp only []
              rw [skipWs_append t hne, readChar_append t h3]
              simp [h.1, h.2]
            · rename_i h3
              split at h
              · rename_i r3 h4
                have hne := skipWs_ne_nil h4
                obtain ⟨x, hx, h⟩ := Option.map_eq_some_iff.mp h
                simp only [Prod.mk.injEq] at h
                have hne2 : skipWs r3 ≠ [] := by
                  intro e
                  have := (parse_length f).2.2 _ x.1 x.2 hx
                  rw [e] at this; simp at this
                rw [ihV _ _ _ h2 (fun _ => ne_nil_of_skipWs hne)]
                simp only []
                rw [skipWs_append t hne, readChar_none_append t hne h3, readChar_append t h4]
                simp only []
                rw [skipWs_append t hne2, ihM _ x.1 x.2 hx, Option.map_some, h.1, h.2]
              · cases h

/-! ### What is written is read back -/

mutual
/-- The values that are written: integers of 64 bits and strings. -/
def Json.Canon : Json → Prop
  | .null => True
  | .bool _ => True
  | .num n => ∃ k, n = some k ∧ k < 2 ^ 64
  | .str s => s.isSome
  | .arr l => CanonList l
  | .obj m => CanonMembers m
def CanonList : List Json → Prop
  | [] => True
  | v :: t => v.Canon ∧ CanonList t
def CanonMembers : List (Option Bytes × Json) → Prop
  | [] => True
  | (k, v) :: t => k.isSome ∧ v.Canon ∧ CanonMembers t
end

/-- What is read for one written byte. -/
def unitOf (b : UInt8) : StrUnit :=
  if b < 32 ∧ b ≠ 8 ∧ b ≠ 9 ∧ b ≠ 10 ∧ b ≠ 12 ∧ b ≠ 13 then .code b.toNat else .byte b

theorem hex4_escape (b : UInt8) : b < 32 → hex4 48 48 (hexLower (b >>> 4)) (hexLower (b &&& 15)) = some b.toNat :=
  byte_forall (p := fun b => b < 32 → hex4 48 48 (hexLower (b >>> 4)) (hexLower (b &&& 15)) = some b.toNat) (by decide +kernel) b

theorem pUnits_simple {e c : UInt8} (t : Bytes) (he : e ≠ 117) (hc : simpleEscape e = some c) (hu : unitOf c = .byte c) :
    pUnits ([92, e] ++ t) = (pUnits t).map fun x => (unitOf c :: x.1, x.2) := by
  rw [List.cons_append, List.singleton_append, pUnits.eq_def (92 :: e :: t)]
  simp only [if_neg (by decide : ¬ (92 : UInt8) = 34), if_true, if_neg he, hc, hu]

theorem pUnits_escape (b : UInt8) (t : Bytes) :
    pUnits (escapeByte b ++ t) = (pUnits t).map fun x => (unitOf b :: x.1, x.2) := by
  unfold escapeByte
  split
  · rename_i h; subst h; exact pUnits_simple t (by decide) (by decide) (by rfl)
  split
  · rename_i h; subst h; exact pUnits_simple t (by decide) (by decide) (by rfl)
  split
  · rename_i h; subst h; exact pUnits_simple t (by decide) (by decide) (by rfl)
  split
  · rename_i h; subst h; exact pUnits_simple t (by decide) (by decide) (by rfl)
  split
  · rename_i h; subst h; exact pUnits_simple t (by decide) (by decide) (by rfl)
  split
  · rename_i h; subst h; exact pUnits_simple t (by decide) (by decide) (by rfl)
  split
  · rename_i h; subst h; exact pUnits_simple t (by decide) (by decide) (by rfl)
  split
  · rename_i h
    have e : b!"\\u00" = [92, 117, 48, 48] := rfl
    rw [e]
    simp only [List.cons_append, List.nil_append]
    rw [pUnits]
    simp only [if_neg (by decide : ¬ (92 : UInt8) = 34), if_true, hex4_escape b h]
    have hu : unitOf b = .code b.toNat := by
      unfold unitOf
      rw [if_pos ⟨h, by assumption, by assumption, by assumption, by assumption, by assumption⟩]
    rw [hu]
  · rename_i h1 h2 _ _ _ _ _ h
    rw [List.singleton_append]
    rw [pUnits.eq_def]
    simp only [if_neg h1, if_neg h2, if_neg h]
    have hu : unitOf b = .byte b := by
      unfold unitOf
      rw [if_neg (fun h' => h h'.1)]
    rw [hu]

theorem pUnits_print (s r : Bytes) : pUnits (s.flatMap escapeByte ++ 34 :: r) = some (s.map unitOf, r) := by
  induction s with
  | nil => rw [pUnits.eq_def]; rfl
  | cons b t ih => rw [List.flatMap_cons, List.append_assoc, pUnits_escape, ih]; rfl

theorem strContent_unit (b : UInt8) (t : List StrUnit) : strContent (unitOf b :: t) = (strContent t).map (b :: ·) := by
  unfold unitOf
  split
  · rename_i h
    have hb : b.toNat < 32 := h.1
    rw [strContent.eq_def]
    simp only []
    rw [if_neg (by omega), if_neg (by omega)]
    unfold utf8Of
    rw [if_pos (by omega), UInt8.ofNat_toNat]
    rfl
  · rw [strContent]

theorem strContent_units (s : Bytes) : strContent (s.map unitOf) = some s := by
  induction s with
  | nil => rfl
  | cons b t ih => rw [List.map_cons, strContent_unit, ih]; rfl

theorem pStr_print (s r : Bytes) : pStr (s.flatMap escapeByte ++ 34 :: r) = some (some s, r) := by
  rw [pStr, pUnits_print, Option.map_some, strContent_units]

/-- The byte after a number does not continue it. -/
def NumEnd (r : Bytes) : Prop := ∀ b t, r = b :: t → isDigit b = false ∧ b ≠ 46 ∧ b ≠ 101 ∧ b ≠ 69

theorem takeWhile_numEnd {ds r : Bytes} (h : ∀ d ∈ ds, isDigit d = true) (hr : NumEnd r) :
    (ds ++ r).takeWhile isDigit = ds ∧ (ds ++ r).dropWhile isDigit = r := by
  induction ds with
  | nil =>
    cases r with
    | nil => exact ⟨rfl, rfl⟩
    | cons b t =>
      have := (hr b t rfl).1
      simp [this]
  | cons d ds ih =>
    have := ih (fun x hx => h x (List.mem_cons_of_mem _ hx))
    have hd := h d (by simp)
    simp [hd, this.1, this.2]

theorem readChar_numEnd {r : Bytes} {c : UInt8} (hr : NumEnd r) (hc : c = 46 ∨ c = 101 ∨ c = 69) : readChar c r = none := by
  cases r with
  | nil => rfl
  | cons b t =>
    have := hr b t rfl
    rw [readChar, if_neg]
    intro e
    subst e
    rcases hc with rfl | rfl | rfl
    · exact this.2.1 rfl
    · exact this.2.2.1 rfl
    · exact this.2.2.2 rfl

theorem decimal_cons (n : Nat) : ∃ d t, decimal n = d :: t ∧ isDigit d = true := by
  have h := isDecimal_decimal n
  cases hd : decimal n with
  | nil => exact absurd hd h.nonempty
  | cons d t => exact ⟨d, t, rfl, decimal_digit n d (by rw [hd]; simp)⟩

theorem pNum_print {n : Nat} {r : Bytes} (hn : n < 2 ^ 64) (hr : NumEnd r) : pNum (decimal n ++ r) = some (.num (some n), r) := by
  obtain ⟨d, t, hd, hdig⟩ := decimal_cons n
  have hm : readChar 45 (decimal n ++ r) = none := by
    rw [hd, List.cons_append, readChar, if_neg]
    rintro rfl
    exact absurd hdig (by decide)
  have tw := takeWhile_numEnd (decimal_digit n) hr
  have hds : pDigits (decimal n ++ r) = some (decimal n, r) := by
    rw [pDigits, tw.1, tw.2, if_neg (by rw [hd]; simp)]
  have hz : ¬ ((decimal n).head? = some 48 ∧ 1 < (decimal n).length) := by
    rintro ⟨h1, h2⟩
    rw [(isDecimal_decimal n).noLeadingZero h1] at h2
    simp at h2
  have hf : pFrac r = some (false, r) := by rw [pFrac, readChar_numEnd hr (Or.inl rfl)]
  have he : pExp r = some (false, r) := by
    rw [pExp, readChar_numEnd hr (Or.inr (Or.inl rfl)), readChar_numEnd hr (Or.inr (Or.inr rfl))]; rfl
  unfold pNum
  rw [hm]
  simp only [pUnsigned, hds, Option.bind_eq_bind, Option.bind_some, if_neg hz, hf, he, decimal_foldl, Option.map_some]
  have : ¬ 2 ^ 64 ≤ n := by omega
  simp [this]

theorem pVal_digit {d : UInt8} {t : Bytes} (f : Nat) (hd : isDigit d = true) : pVal (f + 1) (d :: t) = pNum (d :: t) := by
  have h : ∀ c : UInt8, isDigit c = false → ¬ d = c := by
    intro c hc e; subst e; rw [hd] at hc; cases hc
  unfold pVal
  rw [if_neg (h _ rfl), if_neg (h _ rfl), if_neg (h _ rfl), if_neg (h _ rfl), if_neg (h _ rfl), if_neg (h _ rfl)]

theorem digit_not_ws {d : UInt8} : isDigit d = true → isWs d = false ∧ d ≠ 93 :=
  byte_forall (p := fun d => isDigit d = true → isWs d = false ∧ d ≠ 93) (by decide +kernel) d

theorem print_head (j : Json) : ∃ b t, j.print = b :: t ∧ isWs b = false ∧ b ≠ 93 := by
  cases j with
  | null => exact ⟨_, _, rfl, by decide, by decide⟩
  | bool b => cases b <;> exact ⟨_, _, rfl, by decide, by decide⟩
  | num n =>
    obtain ⟨d, t, hd, hdig⟩ := decimal_cons (n.getD 0)
    exact ⟨d, t, by rw [Json.print, hd], (digit_not_ws hdig).1, (digit_not_ws hdig).2⟩
  | str s => exact ⟨_, _, by rw [Json.print, printStr], by decide, by decide⟩
  | arr l => exact ⟨_, _, by rw [Json.print], by decide, by decide⟩
  | obj m => exact ⟨_, _, by rw [Json.print], by decide, by decide⟩

theorem skipWs_print (j : Json) (r : Bytes) : skipWs (j.print ++ r) = j.print ++ r := by
  obtain ⟨b, t, h, hw, -⟩ := print_head j
  rw [h, List.cons_append, skipWs, List.dropWhile_cons, if_neg (by rw [hw]; simp)]

theorem skipWs_cons {b : UInt8} {t : Bytes} (h : isWs b = false) : skipWs (b :: t) = b :: t := by
  rw [skipWs, List.dropWhile_cons, if_neg (by rw [h]; simp)]

theorem printElems_cons (v : Json) (t : List Json) (ht : t ≠ []) (r : Bytes) :
    printElems (v :: t) ++ r = v.print ++ (44 :: (printElems t ++ r)) := by
  cases t with
  | nil => exact absurd rfl ht
  | cons => rw [printElems]; simp; simp

theorem printElems_head (l : List Json) (hl : l ≠ []) (r : Bytes) :
    skipWs (printElems l ++ r) = printElems l ++ r ∧ readChar 93 (printElems l ++ r) = none := by
  have : ∃ v u, printElems l ++ r = Json.print v ++ u := by
    match l, hl with
    | [v], _ => exact ⟨v, 93 :: r, by rw [printElems]; simp⟩
    | v :: w :: t, _ => exact ⟨v, _, printElems_cons v (w :: t) (by simp) r⟩
  obtain ⟨v, u, e⟩ := this
  rw [e]
  refine ⟨skipWs_print v u, ?_⟩
  obtain ⟨b, t, h, -, hb⟩ := print_head v
  rw [h, List.cons_append, readChar, if_neg hb]

theorem printMembers_cons (k : Option Bytes) (v : Json) (t : List (Option Bytes × Json)) (ht : t ≠ []) (r : Bytes) :
    printMembers ((k, v) :: t) ++ r =
      34 :: ((k.getD []).flatMap escapeByte ++ 34 :: 58 :: (v.print ++ 44 :: (printMembers t ++ r))) := by
  cases t with
  | nil => exact absurd rfl ht
  | cons => rw [printMembers, printStr]; simp; simp

theorem printMembers_one (k : Option Bytes) (v : Json) (r : Bytes) :
    printMembers [(k, v)] ++ r = 34 :: ((k.getD []).flatMap escapeByte ++ 34 :: 58 :: (v.print ++ 125 :: r)) := by
  rw [printMembers, printStr]; simp

theorem printMembers_head (m : List (Option Bytes × Json)) (hm : m ≠ []) (r : Bytes) :
    skipWs (printMembers m ++ r) = printMembers m ++ r ∧ readChar 125 (printMembers m ++ r) = none := by
  have : ∃ u, printMembers m ++ r = 34 :: u := by
    match m, hm with
    | [(k, v)], _ => exact ⟨_, printMembers_one k v r⟩
    | (k, v) :: w :: t, _ => exact ⟨_, printMembers_cons k v (w :: t) (by simp) r⟩
  obtain ⟨u, e⟩ := this
  rw [e]
  exact ⟨skipWs_cons (by decide), rfl⟩

theorem numEnd_cons {b : UInt8} {t : Bytes} (h : isDigit b = false ∧ b ≠ 46 ∧ b ≠ 101 ∧ b ≠ 69) : NumEnd (b :: t) := by
  intro b' t' e
  injection e with e1 e2
  subst e1
  exact h

mutual
theorem pVal_print : ∀ (j : Json), j.Canon → ∀ r, (j.isNum = true → NumEnd r) →
    ∃ f0, ∀ f, f0 ≤ f → pVal f (j.print ++ r) = some (j, r)
  | .null, _, r, _ => ⟨1, fun f hf => by
      obtain ⟨f, rfl⟩ := Nat.exists_eq_add_of_le hf
      rw [Nat.add_comm]
      rfl⟩
  | .bool true, _, r, _ => ⟨1, fun f hf => by
      obtain ⟨f, rfl⟩ := Nat.exists_eq_add_of_le hf
      rw [Nat.add_comm]
      rfl⟩
  | .bool false, _, r, _ => ⟨1, fun f hf => by
      obtain ⟨f, rfl⟩ := Nat.exists_eq_add_of_le hf
      rw [Nat.add_comm]
      rfl⟩
  | .num n, h, r, hr => ⟨1, fun f hf => by
      obtain ⟨f, rfl⟩ := Nat.exists_eq_add_of_le hf
      rw [Json.Canon] at h
      obtain ⟨k, rfl, hk⟩ := h
      obtain ⟨d, t, hd, hdig⟩ := decimal_cons k
      have := pNum_print hk (hr rfl)
      rw [hd] at this
      rw [Nat.add_comm, Json.print, Option.getD_some, hd, List.cons_append, pVal_digit f hdig]
      exact this⟩
  | .str s, h, r, _ => ⟨1, fun f hf => by
      obtain ⟨f, rfl⟩ := Nat.exists_eq_add_of_le hf
      rw [Json.Canon] at h
      obtain ⟨s, rfl⟩ := Option.isSome_iff_exists.mp h
      have e : Json.print (.str (some s)) ++ r = 34 :: (s.flatMap escapeByte ++ 34 :: r) := by
        rw [Json.print, printStr]; simp
      rw [Nat.add_comm, e, pVal, if_pos rfl, pStr_print]
      rfl⟩
  | .arr [], _, r, _ => ⟨1, fun f hf => by
      obtain ⟨f, rfl⟩ := Nat.exists_eq_add_of_le hf
      rw [Nat.add_comm]
      rfl⟩
  | .arr (v :: t), h, r, _ => by
      rw [Json.Canon] at h
      obtain ⟨f0, h0⟩ := pElems_print (v :: t) (by simp) h r
      refine ⟨f0 + 1, fun f hf => ?_⟩
      obtain ⟨f, rfl⟩ := Nat.exists_eq_add_of_le hf
      have e : f0 + 1 + f = (f0 + f) + 1 := by omega
      have hh := printElems_head (v :: t) (by simp) r
      rw [e, Json.print, List.cons_append, pVal, if_neg (by decide), if_pos rfl, hh.1, hh.2]
      simp only []
      rw [h0 _ (by omega), Option.map_some]
  | .obj [], _, r, _ => ⟨1, fun f hf => by
      obtain ⟨f, rfl⟩ := Nat.exists_eq_add_of_le hf
      rw [Nat.add_comm]
      rfl⟩
  | .obj (v :: t), h, r, _ => by
      rw [Json.Canon] at h
      obtain ⟨f0, h0⟩ := pMembers_print (v :: t) (by simp) h r
      refine ⟨f0 + 1, fun f hf => ?_⟩
      obtain ⟨f, rfl⟩ := Nat.exists_eq_add_of_le hf
      have e : f0 + 1 + f = (f0 + f) + 1 := by omega
      have hh := printMembers_head (v :: t) (by simp) r
      rw [e, Json.print, List.cons_append, pVal, if_neg (by decide), if_neg (by decide), if_pos rfl, hh.1, hh.2]
      simp only []
      rw [h0 _ (by omega), Option.map_some]
theorem pElems_print : ∀ (l : List Json), l ≠ [] → CanonList l → ∀ r,
    ∃ f0, ∀ f, f0 ≤ f → pElems f (printElems l ++ r) = some (l, r)
  | [], hl, _, _ => absurd rfl hl
  | [v], _, h, r => by
      rw [CanonList] at h
      obtain ⟨f0, h0⟩ := pVal_print v h.1 (93 :: r) (fun _ => numEnd_cons (by decide))
      refine ⟨f0 + 1, fun f hf => ?_⟩
      obtain ⟨f, rfl⟩ := Nat.exists_eq_add_of_le hf
      have e : f0 + 1 + f = (f0 + f) + 1 := by omega
      have e2 : printElems [v] ++ r = v.print ++ 93 :: r := by rw [printElems]; simp
      rw [e, e2, pElems, h0 _ (by omega)]
      rfl
  | v :: w :: t, _, h, r => by
      rw [CanonList] at h
      obtain ⟨f1, h1⟩ := pElems_print (w :: t) (by simp) h.2 r
      obtain ⟨f0, h0⟩ := pVal_print v h.1 (44 :: (printElems (w :: t) ++ r)) (fun _ => numEnd_cons (by decide))
      refine ⟨f0 + f1 + 1, fun f hf => ?_⟩
      obtain ⟨f, rfl⟩ := Nat.exists_eq_add_of_le hf
      have e : f0 + f1 + 1 + f = (f0 + f1 + f) + 1 := by omega
      have hh := printElems_head (w :: t) (by simp) r
      rw [e, printElems_cons v (w :: t) (by simp) r, pElems, h0 _ (by omega)]
      simp only []
      have e3 : readChar 93 (skipWs (44 :: (printElems (w :: t) ++ r))) = none := rfl
      have e4 : readChar 44 (skipWs (44 :: (printElems (w :: t) ++ r))) = some (printElems (w :: t) ++ r) := rfl
      rw [e3, e4]
      simp only []
      rw [hh.1, h1 _ (by omega), Option.map_some]
theorem pMembers_print : ∀ (m : List (Option Bytes × Json)), m ≠ [] → CanonMembers m → ∀ r,
    ∃ f0, ∀ f, f0 ≤ f → pMembers f (printMembers m ++ r) = some (m, r)
  | [], hl, _, _ => absurd rfl hl
  | [(k, v)], _, h, r => by
      rw [CanonMembers] at h
      obtain ⟨hk, hv, -⟩ := h
      obtain ⟨k, rfl⟩ := Option.isSome_iff_exists.mp hk
      obtain ⟨f0, h0⟩ := pVal_print v hv (125 :: r) (fun _ => numEnd_cons (by decide))
      refine ⟨f0 + 1, fun f hf => ?_⟩
      obtain ⟨f, rfl⟩ := Nat.exists_eq_add_of_le hf
      have e : f0 + 1 + f = (f0 + f) + 1 := by omega
      have e3 : ∀ u, readChar 58 (skipWs (58 :: u)) = some u := fun _ => rfl
      rw [e, printMembers_one, pMembers, Option.getD_some, readChar, if_pos rfl, Option.bind_some, pStr_print]
      simp only []
      rw [e3]
      simp only []
      rw [skipWs_print, h0 _ (by omega)]
      rfl
  | (k, v) :: w :: t, _, h, r => by
      rw [CanonMembers] at h
      obtain ⟨hk, hv, ht⟩ := h
      obtain ⟨k, rfl⟩ := Option.isSome_iff_exists.mp hk
      obtain ⟨f1, h1⟩ := pMembers_print (w :: t) (by simp) ht r
      obtain ⟨f0, h0⟩ := pVal_print v hv (44 :: (printMembers (w :: t) ++ r)) (fun _ => numEnd_cons (by decide))
      refine ⟨f0 + f1 + 1, fun f hf => ?_⟩
      obtain ⟨f, rfl⟩ := Nat.exists_eq_add_of_le hf
      have e : f0 + f1 + 1 + f = (f0 + f1 + f) + 1 := by omega
      have hh := printMembers_head (w :: t) (by simp) r
      have e5 : ∀ u, readChar 58 (skipWs (58 :: u)) = some u := fun _ => rfl
      rw [e, printMembers_cons (some k) v (w :: t) (by simp) r, pMembers, Option.getD_some, readChar, if_pos rfl, Option.bind_some, pStr_print]
      simp only []
      rw [e5]
      simp only []
      rw [skipWs_print, h0 _ (by omega)]
      simp only []
      have e3 : readChar 125 (skipWs (44 :: (printMembers (w :: t) ++ r))) = none := rfl
      have e4 : readChar 44 (skipWs (44 :: (printMembers (w :: t) ++ r))) = some (printMembers (w :: t) ++ r) := rfl
      rw [e3, e4]
      simp only []
      rw [hh.1, h1 _ (by omega), Option.map_some]
end

theorem parse_print (j : Json) (h : j.Canon) : Json.parse j.print = some j := by
  obtain ⟨f0, h0⟩ := pVal_print j h [] (fun _ => by intro b t e; cases e)
  rw [List.append_nil] at h0
  have hs : skipWs j.print = j.print := by
    have := skipWs_print j []
    rwa [List.append_nil] at this
  have := pVal_fuel j.print (2 * j.print.length + 2 + f0) (by omega)
  unfold Json.parse
  rw [← this, hs, h0 _ (by omega)]
  rfl

theorem pVal_brace_isNum {f : Nat} {t r : Bytes} {v : Json} (h : pVal f (123 :: t) = some (v, r)) : v.isNum = false := by
  cases f with
  | zero => simp [pVal] at h
  | succ f =>
    unfold pVal at h
    rw [if_neg (by decide), if_neg (by decide), if_pos rfl] at h
    split at h
    · simp only [Option.some.injEq, Prod.mk.injEq] at h; rw [← h.1]; rfl
    · obtain ⟨x, hx, h⟩ := Option.map_eq_some_iff.mp h
      simp only [Prod.mk.injEq] at h
      rw [← h.1]; rfl

/-- Cutting off the end of an object makes it unreadable. -/
theorem parse_prefix (m : List (Option Bytes × Json)) (h : (Json.obj m).Canon) (s t : Bytes)
    (e : (Json.obj m).print = s ++ t) (ht : t ≠ []) : Json.parse s = none := by
  cases hp : Json.parse s with
  | none => rfl
  | some j =>
    exfalso
    cases s with
    | nil => cases hp
    | cons b s =>
      have hb : b = 123 := by
        rw [Json.print, List.cons_append] at e
        injection e with e1 e2
        exact e1.symm
      subst hb
      unfold Json.parse at hp
      rw [skipWs_cons (by decide)] at hp
      split at hp
      · rename_i v r hv
        obtain ⟨f0, h0⟩ := pVal_print (.obj m) h [] (fun hn => by cases hn)
        rw [List.append_nil] at h0
        have hv' := pVal_fuel (123 :: s) (2 * (123 :: s : Bytes).length + 2 + f0) (by omega)
        rw [skipWs_cons (by decide), hv] at hv'
        have hx := (parse_append t _).1 _ _ _ hv' (fun hn => by rw [pVal_brace_isNum hv] at hn; cases hn)
        rw [← e, h0 _ (by omega)] at hx
        simp only [Option.some.injEq, Prod.mk.injEq] at hx
        exact ht (List.append_eq_nil_iff.mp hx.2.symm).2
      · cases hp

/-! ### The metadata -/

theorem allSome_map {α β : Type} (g : α → Option β) (k : β → α) (h : ∀ b, g (k b) = some b) (l : List β) :
    allSome ((l.map k).map g) = some l := by
  induction l with
  | nil => rfl
  | cons b t ih => simp only [List.map_cons, h, allSome, ih, Option.map_some]

theorem File.ofJson_toJson (f : File) : File.ofJson f.toJson = some f := by
  have h : vecOf strOf (.arr (f.path.map fun s => .str (some s))) = some f.path :=
    allSome_map strOf (fun s => .str (some s)) (fun _ => rfl) f.path
  have e1 : required (vecOf strOf) [(some b!"path", .arr (f.path.map fun s => .str (some s))), (some b!"length", .num (some f.length))] b!"path" =
    vecOf strOf (.arr (f.path.map fun s => .str (some s))) := rfl
  have e2 : required natOf [(some b!"path", .arr (f.path.map fun s => .str (some s))), (some b!"length", .num (some f.length))] b!"length" =
    some f.length := rfl
  have e3 : keysReadable [(some b!"path", .arr (f.path.map fun s => .str (some s))), (some b!"length", .num (some f.length))] = true := rfl
  rw [File.toJson, File.ofJson, e1, e2, e3, h]
  rfl

theorem byteOf_toNat (b : UInt8) : byteOf (.num (some b.toNat)) = some b := by
  have : b.toNat < 256 := UInt8.toNat_lt b
  simp [byteOf, natOf, this]

theorem Info.ofJson_toJson (i : Info) : Info.ofJson i.toJson = some i := by
  obtain ⟨files, length, name, pl, pieces⟩ := i
  have h1 : optOf (vecOf File.ofJson) (optTo (fun fs => .arr (fs.map File.toJson)) files) = some files := by
    cases files with
    | none => rfl
    | some fs =>
      have := allSome_map File.ofJson File.toJson File.ofJson_toJson fs
      show (vecOf File.ofJson (.arr (fs.map File.toJson))).map some = _
      rw [vecOf, this]; rfl
  have h2 : optOf natOf (optTo (fun n => .num (some n)) length) = some length := by
    cases length <;> rfl
  have h3 : vecOf byteOf (.arr (pieces.map fun b => .num (some b.toNat))) = some pieces :=
    allSome_map byteOf (fun b => .num (some b.toNat)) byteOf_toNat pieces
  unfold Info.toJson Info.ofJson
  have k : ∀ a b c d e, keysReadable [(some b!"files", a), (some b!"length", b), (some b!"name", c),
      (some b!"piece_length", d), (some b!"pieces", e)] = true := fun _ _ _ _ _ => rfl
  have f1 : ∀ a b c d e, optional (vecOf File.ofJson) [(some b!"files", a), (some b!"length", b), (some b!"name", c), (some b!"piece_length", d),
      (some b!"pieces", e)] b!"files" = optOf (vecOf File.ofJson) a := fun _ _ _ _ _ => rfl
  have f2 : ∀ a b c d e, optional natOf [(some b!"files", a), (some b!"length", b), (some b!"name", c), (some b!"piece_length", d),
      (some b!"pieces", e)] b!"length" = optOf natOf b := fun _ _ _ _ _ => rfl
  have f3 : ∀ a b c d e, required strOf [(some b!"files", a), (some b!"length", b), (some b!"name", c), (some b!"piece_length", d),
      (some b!"pieces", e)] b!"name" = strOf c := fun _ _ _ _ _ => rfl
  have f4 : ∀ a b c d e, required natOf [(some b!"files", a), (some b!"length", b), (some b!"name", c), (some b!"piece_length", d),
      (some b!"pieces", e)] b!"piece_length" = natOf d := fun _ _ _ _ _ => rfl
  have f5 : ∀ a b c d e, required (vecOf byteOf) [(some b!"files", a), (some b!"length", b), (some b!"name", c), (some b!"piece_length", d),
      (some b!"pieces", e)] b!"pieces" = vecOf byteOf e := fun _ _ _ _ _ => rfl
  simp only [k, f1, f2, f3, f4, f5, h1, h2, h3, strOf, natOf]
  rfl

theorem canonList_map {α : Type} (l : List α) (k : α → Json) (h : ∀ a ∈ l, (k a).Canon) : CanonList (l.map k) := by
  induction l with
  | nil => simp [CanonList]
  | cons a t ih =>
    rw [List.map_cons, CanonList]
    exact ⟨h a (by simp), ih (fun b hb => h b (List.mem_cons_of_mem _ hb))⟩

/-- The numbers fit in `usize`. -/
structure Info.Sized (i : Info) : Prop where
  files : ∀ fs, i.files = some fs → ∀ f ∈ fs, f.length < 2 ^ 64
  length : ∀ n, i.length = some n → n < 2 ^ 64
  pieceLength : i.pieceLength < 2 ^ 64

theorem File.canon {f : File} (h : f.length < 2 ^ 64) : f.toJson.Canon := by
  simp only [File.toJson, Json.Canon, CanonMembers, and_true]
  exact ⟨rfl, canonList_map _ _ (fun a _ => by simp [Json.Canon]), rfl, _, rfl, h⟩

theorem Info.canon {i : Info} (h : i.Sized) : i.toJson.Canon := by
  simp only [Info.toJson, Json.Canon, CanonMembers, and_true]
  refine ⟨rfl, ?_, rfl, ?_, rfl, rfl, rfl, ⟨_, rfl, h.pieceLength⟩, rfl, canonList_map _ _ (fun b _ => ?_)⟩
  · cases hf : i.files with
    | none => simp [optTo, Json.Canon]
    | some fs =>
      simp only [optTo, Json.Canon]
      exact canonList_map _ _ (fun f hm => File.canon (h.files fs hf f hm))
  · cases hf : i.length with
    | none => simp [optTo, Json.Canon]
    | some n => simp only [optTo, Json.Canon]; exact ⟨_, rfl, h.length n hf⟩
  · have := UInt8.toNat_lt b
    simp only [Json.Canon]
    exact ⟨_, rfl, by omega⟩

theorem Info.fromJson_json {i : Info} (h : i.Sized) : Info.fromJson i.json = some i := by
  rw [Info.fromJson, Info.json, parse_print _ (Info.canon h), Option.bind_some, Info.ofJson_toJson]

theorem Info.fromJson_cut {i : Info} (h : i.Sized) {k : Nat} (hk : k < i.json.length) : Info.fromJson (i.json.take k) = none := by
  have hc := Info.canon h
  rw [Info.toJson] at hc
  rw [Info.fromJson, parse_prefix _ hc (i.json.take k) (i.json.drop k) (List.take_append_drop k i.json).symm]
  · rfl
  · intro e
    have := congrArg List.length e
    rw [List.length_drop, List.length_nil] at this
    omega

end RustBit
