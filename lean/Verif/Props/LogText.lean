/-
C100: the lines of the log.
-/
import Verif.Proofs.LogText
import Verif.Proofs.EncodeTyped
import Verif.Props.Log

namespace RustBit
open Spec

/-! ### Values can be read back -/

/-- What comes after the first item. -/
def moreItems (c : UInt8) (x : Bytes) : List Bytes → Bytes
  | [] => c :: x
  | y :: t => 44 :: 32 :: (commas (y :: t) ++ c :: x)

theorem commas_cons (a : Bytes) (t : List Bytes) (c : UInt8) (x : Bytes) : commas (a :: t) ++ c :: x = a ++ moreItems c x t := by
  cases t with
  | nil => rfl
  | cons y t =>
    rw [commas, moreItems]
    show (a ++ [44, 32] ++ _) ++ _ = _
    simp

theorem moreItems_head (c : UInt8) (x : Bytes) (t : List Bytes) : ∃ h r, moreItems c x t = h :: r ∧ (h = c ∨ h = 44) := by
  cases t with
  | nil => exact ⟨c, x, rfl, .inl rfl⟩
  | cons y t => exact ⟨44, _, rfl, .inr rfl⟩

theorem debugStr_prefix (shown : Nat → Bool) {s s' x y : Bytes} (h : Text s) (h' : Text s') (e : debugStr shown s ++ x = debugStr shown s' ++ y) :
    s = s' ∧ x = y := by
  have h1 := unquote_debugStr shown h x
  rw [e, unquote_debugStr shown h' y] at h1
  simp only [Option.some.injEq, Prod.mk.injEq] at h1
  exact ⟨h1.1.symm, h1.2.symm⟩

theorem decimal_ne_head (n : Nat) {c : UInt8} (hc : isDigit c = false) (x r : Bytes) : decimal n ++ x ≠ c :: r := by
  intro e
  obtain ⟨d, t, h, hd⟩ := decimal_cons n
  rw [h] at e
  simp only [List.cons_append, List.cons.injEq] at e
  rw [e.1, hc] at hd
  cases hd

theorem decimals_prefix : ∀ (l l' : Bytes) (x y : Bytes),
    commas (l.map fun b => decimal b.toNat) ++ 93 :: x = commas (l'.map fun b => decimal b.toNat) ++ 93 :: y → l = l' ∧ x = y
  | [], [], x, y, e => by
    simp only [List.map_nil, commas, List.nil_append, List.cons.injEq, true_and] at e
    exact ⟨rfl, e⟩
  | [], b :: t, x, y, e => by
    rw [List.map_cons, commas_cons] at e
    exact absurd e.symm (decimal_ne_head _ (by decide) _ _)
  | a :: t, [], x, y, e => by
    rw [List.map_cons, commas_cons] at e
    exact absurd e (decimal_ne_head _ (by decide) _ _)
  | a :: t, b :: t', x, y, e => by
    simp only [List.map_cons, commas_cons] at e
    obtain ⟨h, r, e1, hh⟩ := moreItems_head 93 x (t.map fun b => decimal b.toNat)
    obtain ⟨h', r', e2, hh'⟩ := moreItems_head 93 y (t'.map fun b => decimal b.toNat)
    have hd : isDigit h = false := by rcases hh with rfl | rfl <;> decide
    have hd' : isDigit h' = false := by rcases hh' with rfl | rfl <;> decide
    rw [e1, e2] at e
    obtain ⟨ha, -, -⟩ := digits_prefix (decimal_digit a.toNat) (decimal_digit b.toNat) hd hd' e
    rw [ha, ← e1, ← e2] at e
    have e := List.append_cancel_left e
    have hab : a = b := UInt8.toNat_inj.mp (decimal_inj ha)
    cases t with
    | nil => cases t' with
      | nil =>
        simp only [List.map_nil, moreItems, List.cons.injEq, true_and] at e
        exact ⟨by rw [hab], e⟩
      | cons b2 t2 =>
        simp only [List.map_nil, List.map_cons, moreItems, List.cons.injEq] at e
        exact absurd e.1 (by decide)
    | cons a2 t2 => cases t' with
      | nil =>
        simp only [List.map_nil, List.map_cons, moreItems, List.cons.injEq] at e
        exact absurd e.1 (by decide)
      | cons b2 t2' =>
        simp only [List.map_cons, moreItems, List.cons.injEq, true_and] at e
        obtain ⟨r1, r2⟩ := decimals_prefix (a2 :: t2) (b2 :: t2') x y e
        exact ⟨by rw [hab, r1], r2⟩

theorem debugBytes_prefix (l l' x y : Bytes) (e : debugBytes l ++ x = debugBytes l' ++ y) : l = l' ∧ x = y := by
  unfold debugBytes at e
  refine decimals_prefix l l' x y ?_
  have h : ∀ (a z : Bytes), b!"[" ++ a ++ b!"]" ++ z = 91 :: (a ++ 93 :: z) := by
    intro a z; show [91] ++ a ++ [93] ++ z = _; simp
  rw [h, h] at e
  exact (List.cons.inj e).2

/-- A value starts with a letter. -/
theorem debug_head (shown : Nat → Bool) (v : Metainfo) : ∃ h t, v.debug shown = h :: t ∧ (h = c!"I" ∨ h = c!"L" ∨ h = c!"S" ∨ h = c!"D" ∨ h = c!"N") := by
  cases v with
  | integer n => exact ⟨_, _, by rw [Metainfo.debug]; rfl, .inl rfl⟩
  | list l => exact ⟨_, _, by rw [Metainfo.debug]; rfl, .inr (.inl rfl)⟩
  | string s => exact ⟨_, _, by rw [Metainfo.debug]; rfl, .inr (.inr (.inl rfl))⟩
  | dictionary d => exact ⟨_, _, by rw [Metainfo.debug]; rfl, .inr (.inr (.inr (.inl rfl)))⟩
  | nothing => exact ⟨c!"N", b!"othing", rfl, .inr (.inr (.inr (.inr rfl)))⟩

mutual
theorem debug_prefix (shown : Nat → Bool) : (v w : Metainfo) → (x y : Bytes) → KeysText v → KeysText w → v.debug shown ++ x = w.debug shown ++ y →
    v = w ∧ x = y
  | .integer n, w, x, y, hv, hw, e => by
    cases w with
    | integer k =>
      simp only [Metainfo.debug, List.append_assoc] at e
      have e := List.append_cancel_left e
      obtain ⟨r1, r2⟩ := decimal_prefix (x := 41) (y := 41) (by decide) (by decide) e
      exact ⟨by rw [r1], r2⟩
    | _ => simp only [Metainfo.debug, List.append_assoc] at e; exact absurd (List.cons.inj e).1 (by decide)
  | .list l, w, x, y, hv, hw, e => by
    cases w with
    | list l' =>
      simp only [Metainfo.debug, List.append_assoc] at e
      have e := List.append_cancel_left e
      obtain ⟨r1, r2⟩ := elems_prefix shown l l' (41 :: x) (41 :: y) hv hw e
      exact ⟨by rw [r1], (List.cons.inj r2).2⟩
    | _ => simp only [Metainfo.debug, List.append_assoc] at e; exact absurd (List.cons.inj e).1 (by decide)
  | .string s, w, x, y, hv, hw, e => by
    cases w with
    | string s' =>
      simp only [Metainfo.debug, List.append_assoc] at e
      have e := List.append_cancel_left e
      obtain ⟨r1, r2⟩ := debugBytes_prefix _ _ _ _ e
      exact ⟨by rw [r1], (List.cons.inj r2).2⟩
    | _ => simp only [Metainfo.debug, List.append_assoc] at e; exact absurd (List.cons.inj e).1 (by decide)
  | .dictionary d, w, x, y, hv, hw, e => by
    cases w with
    | dictionary d' =>
      simp only [Metainfo.debug, List.append_assoc] at e
      have e := List.append_cancel_left e
      obtain ⟨r1, r2⟩ := entries_prefix shown d d' (41 :: x) (41 :: y) hv hw e
      exact ⟨by rw [r1], (List.cons.inj r2).2⟩
    | _ => simp only [Metainfo.debug, List.append_assoc] at e; exact absurd (List.cons.inj e).1 (by decide)
  | .nothing, w, x, y, hv, hw, e => by
    cases w with
    | nothing => exact ⟨rfl, List.append_cancel_left e⟩
    | _ => simp only [Metainfo.debug, List.append_assoc] at e; exact absurd (List.cons.inj e).1 (by decide)
theorem elems_prefix (shown : Nat → Bool) : (l l' : List Metainfo) → (x y : Bytes) → KeysTextElems l → KeysTextElems l' →
    commas (debugElems shown l) ++ 93 :: x = commas (debugElems shown l') ++ 93 :: y → l = l' ∧ x = y
  | [], l', x, y, hl, hl', e => by
    cases l' with
    | nil => exact ⟨rfl, (List.cons.inj e).2⟩
    | cons w t' =>
      rw [debugElems, debugElems, commas_cons] at e
      obtain ⟨h, t, e1, hh⟩ := debug_head shown w
      rw [e1] at e
      have := (List.cons.inj e).1
      rw [← this] at hh
      exact absurd hh (by decide)
  | v :: t, l', x, y, hl, hl', e => by
    cases l' with
    | nil =>
      rw [debugElems, debugElems, commas_cons] at e
      obtain ⟨h, t, e1, hh⟩ := debug_head shown v
      rw [e1] at e
      have := (List.cons.inj e).1
      rw [this] at hh
      exact absurd hh (by decide)
    | cons w t' =>
      rw [debugElems, debugElems, commas_cons, commas_cons] at e
      obtain ⟨r1, r2⟩ := debug_prefix shown v w _ _ hl.1 hl'.1 e
      have ih := elems_prefix shown t t' x y hl.2 hl'.2
      cases t with
      | nil => cases t' with
        | nil => exact ⟨by rw [r1], (List.cons.inj r2).2⟩
        | cons w2 t2 => rw [debugElems, debugElems] at r2; exact absurd (List.cons.inj r2).1 (by decide)
      | cons v2 t2 => cases t' with
        | nil => rw [debugElems, debugElems] at r2; exact absurd (List.cons.inj r2).1 (by decide)
        | cons w2 t2' =>
          have : commas (debugElems shown (v2 :: t2)) ++ 93 :: x = commas (debugElems shown (w2 :: t2')) ++ 93 :: y := by
            simp only [debugElems] at r2 ⊢
            exact (List.cons.inj (List.cons.inj r2).2).2
          obtain ⟨i1, i2⟩ := ih this
          exact ⟨by rw [r1, i1], i2⟩
theorem entries_prefix (shown : Nat → Bool) : (d d' : List (Bytes × Metainfo)) → (x y : Bytes) → KeysTextEntries d → KeysTextEntries d' →
    commas (debugEntries shown d) ++ 125 :: x = commas (debugEntries shown d') ++ 125 :: y → d = d' ∧ x = y
  | [], d', x, y, hd, hd', e => by
    cases d' with
    | nil => exact ⟨rfl, (List.cons.inj e).2⟩
    | cons w t' =>
      obtain ⟨k', w⟩ := w
      rw [debugEntries, debugEntries, commas_cons] at e
      exact absurd (List.cons.inj e).1 (by decide)
  | (k, v) :: t, d', x, y, hd, hd', e => by
    cases d' with
    | nil =>
      rw [debugEntries, debugEntries, commas_cons] at e
      exact absurd (List.cons.inj e).1 (by decide)
    | cons w t' =>
      obtain ⟨k', w⟩ := w
      rw [debugEntries, debugEntries, commas_cons, commas_cons] at e
      simp only [List.append_assoc] at e
      obtain ⟨r0, e⟩ := debugStr_prefix shown hd.1 hd'.1 e
      have e := List.append_cancel_left e
      obtain ⟨r1, r2⟩ := debug_prefix shown v w _ _ hd.2.1 hd'.2.1 e
      have ih := entries_prefix shown t t' x y hd.2.2 hd'.2.2
      cases t with
      | nil => cases t' with
        | nil => exact ⟨by rw [r0, r1], (List.cons.inj r2).2⟩
        | cons w2 t2 => obtain ⟨k2, w2⟩ := w2; rw [debugEntries, debugEntries] at r2; exact absurd (List.cons.inj r2).1 (by decide)
      | cons v2 t2 =>
        obtain ⟨k2, v2⟩ := v2
        cases t' with
        | nil => rw [debugEntries, debugEntries] at r2; exact absurd (List.cons.inj r2).1 (by decide)
        | cons w2 t2' =>
          obtain ⟨k2', w2⟩ := w2
          have : commas (debugEntries shown ((k2, v2) :: t2)) ++ 125 :: x = commas (debugEntries shown ((k2', w2) :: t2')) ++ 125 :: y := by
            simp only [debugEntries] at r2 ⊢
            exact (List.cons.inj (List.cons.inj r2).2).2
          obtain ⟨i1, i2⟩ := ih this
          exact ⟨by rw [r0, r1, i1], i2⟩
end

/-! ### C100 -/

/-- C100: every record of the program is one line: there is no line feed and no carriage return in it but the line feed at its end, whatever the
peers, the trackers and the operating system have sent to be printed. -/
theorem C100_one_line (shown : Nat → Bool) (t : LogTime) (r : LogRec) : ∃ l, r.line shown t = l ++ [10] ∧ OneLine l := line_split shown t r

/-- C100: a text is printed as a string literal that denotes it, so that it cannot be taken for anything beyond its closing quotation mark. -/
theorem C100_quoted (shown : Nat → Bool) {s : Bytes} (h : Text s) (rest : Bytes) : unquote (debugStr shown s ++ rest) = some (s, rest) :=
  unquote_debugStr shown h rest

/-- C100: two different values are printed differently, and where a value ends is clear. -/
theorem C100_values (shown : Nat → Bool) {v w : Metainfo} (hv : KeysText v) (hw : KeysText w) {x y : Bytes}
    (e : v.debug shown ++ x = w.debug shown ++ y) : v = w ∧ x = y := debug_prefix shown v w x y hv hw e

/-- C100, the log file: when the program has logged these records and nothing else, the lines of the log file are theirs, one for each, and no
other way of taking the file for lines is possible. Missing: the records of libraries; torrents that write to the log file; a line that is
written by halves when the program is stopped (as in C94). -/
theorem C100_log_partial {w : World} {fs : FS} {P : Proc} (hst : PSteps w OffLog (Proc.init fs) P) (hrun : P.log ≠ none ∨ P.said ≠ []) (shown : Nat → Bool)
    (rs : List (LogTime × LogRec)) (hsaid : P.said = rs.map fun r => r.2.line shown r.1) :
    ∃ file ls, readFile P.fs (w.cwd ++ [b!"test.log"]) = some file ∧ IsLines file ls [] ∧ ls.length = rs.length ∧
      (∀ i, ∀ h : i < ls.length, ∀ h' : i < rs.length, rs[i].2.line shown rs[i].1 = ls[i] ++ [10]) ∧
      ∀ ls' rest', IsLines file ls' rest' → ls' = ls ∧ rest' = [] := by
  have hf := (C94_log_partial hst hrun).1
  have key : ∀ rs : List (LogTime × LogRec), ∃ ls : List Bytes, (rs.map fun r => r.2.line shown r.1) = ls.map (· ++ [10]) ∧ (∀ l ∈ ls, 10 ∉ l) ∧
      ls.length = rs.length := by
    intro rs
    induction rs with
    | nil => exact ⟨[], rfl, by simp, rfl⟩
    | cons r t ih =>
      obtain ⟨ls, h1, h2, h3⟩ := ih
      obtain ⟨l, e, hl⟩ := line_split shown r.1 r.2
      refine ⟨l :: ls, by rw [List.map_cons, List.map_cons, h1, e], ?_, by simp [h3]⟩
      intro x hx
      rcases List.mem_cons.mp hx with rfl | hx
      · exact hl.1
      · exact h2 x hx
  obtain ⟨ls, h1, h2, h3⟩ := key rs
  have hlines : IsLines P.said.flatten ls [] := ⟨by rw [hsaid, h1, List.append_nil], h2, by simp⟩
  refine ⟨_, ls, hf, hlines, h3, ?_, fun ls' rest' h => (isLines_unique h hlines)⟩
  intro i h h'
  have e := congrArg (fun l => l[i]?) h1
  simp only [List.getElem?_map, List.getElem?_eq_getElem h, List.getElem?_eq_getElem h', Option.map_some, Option.some.injEq] at e
  exact e

/-- A peer that has sent a value made to look like the next line: it is still one line. -/
example : LogRec.line (fun _ => true) ⟨2024, 1, 2, 3, 4, 5, 678⟩ (.noExtensionValue (.dictionary [(b!"\n\"", .nothing)])) =
    b!"src/messages/extension.rs:103 2024-01-02T03:04:05.678 [INFO] - No extension value found from Dictionary({\"\\n\\\"\": Nothing})\n" := by
  decide +kernel

/-- Non-vacuity of `C100_log_partial`: any records can be logged. -/
example (w : World) (shown : Nat → Bool) (rs : List (LogTime × LogRec)) : ∃ P, PSteps w OffLog (Proc.init (fun _ => none)) P ∧ P.log ≠ none ∧
    P.said = rs.map fun r => r.2.line shown r.1 := by
  obtain ⟨fs1, l1, l2, -⟩ := createLog_ok (cwd := w.cwd) (fs := fun _ => none) (by simp)
  have st := PStep.start (w := w) (Proc.init (fun _ => none)) rfl fs1 l1
  obtain ⟨P, h1, h2, -, h4⟩ := log_lines (w := w) (Q := OffLog) (rs.map fun r => r.2.line shown r.1)
    { Proc.init (fun _ => none) with fs := fs1, log := some 0, said := [] } 0 rfl rfl
  exact ⟨P, (PSteps.tail (Q := OffLog) (.refl _) st (fun s hs => by cases hs)).trans h1, h4, by rw [h2]; rfl⟩

/-- Non-vacuity of `C100_quoted` and `C100_values`. -/
example (shown : Nat → Bool) : unquote (debugStr shown b!"a\"\n, b" ++ b!" x") = some (b!"a\"\n, b", b!" x") :=
  C100_quoted shown ⟨[97, 34, 10, 44, 32, 98], by unfold Scalar; decide, rfl⟩ _
example : KeysText (.dictionary [(b!"a", .list [.integer 3])]) ∧ KeysText (.dictionary [(b!"a", .list []), (b!"b", .integer 3)]) :=
  ⟨⟨⟨[97], by unfold Scalar; decide, rfl⟩, ⟨trivial, trivial⟩, trivial⟩, ⟨⟨[97], by unfold Scalar; decide, rfl⟩, trivial, ⟨[98], by unfold Scalar; decide, rfl⟩, trivial, trivial⟩⟩

end RustBit
