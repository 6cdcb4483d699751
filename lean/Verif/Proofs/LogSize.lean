/-
How long the lines of the log are.
-/
import Verif.Model.LogCalls
import Verif.Proofs.LogText
import Verif.Props.Buffers
import Verif.Props.Conversation

namespace RustBit
open Spec

/-! ### Texts -/

theorem hexRev_length : ∀ (k f n : Nat), 0 < k → n < 16 ^ k → (hexRev f n).length ≤ k
  | _, 0, _, _, _ => by simp [hexRev]
  | 0, _ + 1, _, h, _ => absurd h (by omega)
  | k + 1, f + 1, n, _, h => by
    rw [hexRev]
    by_cases hz : n / 16 = 0
    · simp [hz]
    · rw [if_neg hz, List.length_cons]
      have hk : 0 < k := by
        rcases Nat.eq_zero_or_pos k with rfl | hk
        · simp only [Nat.zero_add, Nat.pow_one] at h; omega
        · exact hk
      have := hexRev_length k f (n / 16) hk (by rw [Nat.pow_succ] at h; omega)
      omega

theorem escapeUnicode_length (k n : Nat) (hk : 0 < k) (h : n < 16 ^ k) : (escapeUnicode n).length ≤ k + 4 := by
  unfold escapeUnicode
  have := hexRev_length k (n + 1) n hk h
  simp only [List.length_append, List.length_reverse]
  show 3 + _ + 1 ≤ _
  omega

theorem isCont_lt {c : UInt8} (h : isCont c = true) : c.toNat < 192 := ((isCont_iff c).mp h).2

/-- How large the code point of a character is, by the number of its bytes; and they are there. -/
theorem charAt_size (b : UInt8) (t : Bytes) : (charAt b t).2 ≤ t.length ∧ (charAt b t).1 < 16 ^ (2 + (charAt b t).2 * 6 / 4) := by
  have hb := b.toNat_lt
  unfold charAt
  split
  · exact ⟨Nat.zero_le _, by simpa using hb⟩
  · split
    · exact ⟨Nat.zero_le _, by simpa using hb⟩
    · rename_i c t2
      have hc := c.toNat_lt
      split
      · rename_i h
        rw [Bool.and_eq_true] at h
        have h1 := (lead2_iff b).mp h.1
        have h2 := isCont_lt h.2
        refine ⟨by simp, Nat.lt_of_lt_of_eq (m := 4096) ?_ (by simp only [])⟩
        simp only []
        omega
      · split
        · exact ⟨Nat.zero_le _, by simpa using hb⟩
        · rename_i d t3
          have hd := d.toNat_lt
          split
          · rename_i h
            rw [Bool.and_eq_true] at h
            have h2 := isCont_lt h.2
            refine ⟨by simp, Nat.lt_of_lt_of_eq (m := 1048576) ?_ (by simp only [])⟩
            simp only []
            omega
          · split
            · exact ⟨Nat.zero_le _, by simpa using hb⟩
            · rename_i e t4
              have he := e.toNat_lt
              split
              · refine ⟨by simp, Nat.lt_of_lt_of_eq (m := 16777216) ?_ (by simp only [])⟩
                simp only []
                omega
              · exact ⟨Nat.zero_le _, by simpa using hb⟩

theorem escapeDebug_length (shown : Nat → Bool) (b : UInt8) (t : Bytes) :
    (escapeDebug shown ((charAt b t).1, b :: t.take (charAt b t).2)).length ≤ 6 * ((charAt b t).2 + 1) := by
  obtain ⟨h1, h2⟩ := charAt_size b t
  have h3 := escapeUnicode_length _ _ (show 0 < 2 + (charAt b t).2 * 6 / 4 by omega) h2
  unfold escapeDebug
  simp only []
  repeat' split
  all_goals first
    | (show 2 ≤ _; omega)
    | (simp only [List.length_cons, List.length_take]; omega)
    | omega

theorem charsF_length (shown : Nat → Bool) : ∀ (f : Nat) (s : Bytes), ((charsF f s).flatMap (escapeDebug shown)).length ≤ 6 * s.length
  | 0, s => by simp [charsF]
  | f + 1, [] => by simp [charsF]
  | f + 1, b :: t => by
    rw [charsF, List.flatMap_cons, List.length_append]
    have h1 := escapeDebug_length shown b t
    have h2 := charsF_length shown f (t.drop (charAt b t).2)
    have h3 := (charAt_size b t).1
    simp only [List.length_drop, List.length_cons] at h2 ⊢
    omega

theorem debugStr_length (shown : Nat → Bool) (s : Bytes) : (debugStr shown s).length ≤ 6 * s.length + 2 := by
  unfold debugStr chars
  have := charsF_length shown s.length s
  simp only [List.length_cons, List.length_append, List.length_nil]
  omega

theorem decimal_byte_length (x : UInt8) : (decimal x.toNat).length ≤ 3 := decimal_length_lt 3 _ (by omega) (by have := x.toNat_lt; omega)

theorem decimal_u64_length {n : Nat} (h : n < 2 ^ 64) : (decimal n).length ≤ 20 := decimal_length_lt 20 _ (by omega) (by omega)

theorem commas_length (l : List Bytes) : (commas l).length ≤ (l.map fun x => x.length + 2).sum := by
  match l with
  | [] => simp [commas]
  | [x] => simp [commas]
  | x :: y :: t =>
    have := commas_length (y :: t)
    rw [commas, List.map_cons, List.sum_cons, List.length_append, List.length_append]
    show _ + 2 + _ ≤ _
    omega

theorem debugBytes_length (b : Bytes) : (debugBytes b).length ≤ 5 * b.length + 2 := by
  unfold debugBytes
  have h := commas_length (b.map fun x => decimal x.toNat)
  have h2 : ∀ l : Bytes, ((l.map fun x => decimal x.toNat).map fun x => x.length + 2).sum ≤ 5 * l.length := by
    intro l
    induction l with
    | nil => simp
    | cons x t ih =>
      have := decimal_byte_length x
      simp only [List.map_cons, List.sum_cons, List.length_cons]
      omega
  have := h2 b
  simp only [List.length_append]
  show 1 + _ + 1 ≤ _
  omega

mutual
theorem debug_length (shown : Nat → Bool) : (v : Metainfo) → IntsFit v → (v.debug shown).length + 2 ≤ 32 * v.units
  | .integer n, h => by
    have := decimal_u64_length (show n < 2 ^ 64 from h)
    simp only [Metainfo.debug, Metainfo.units, List.length_append]
    show 8 + _ + 1 + 2 ≤ _
    omega
  | .list l, h => by
    have h1 := commas_length (debugElems shown l)
    have h2 := debugElems_length shown l h
    simp only [Metainfo.debug, Metainfo.units, List.length_append]
    show 6 + _ + 2 + 2 ≤ _
    omega
  | .string s, _ => by
    have := debugBytes_length s
    simp only [Metainfo.debug, Metainfo.units, List.length_append]
    show 7 + _ + 1 + 2 ≤ _
    omega
  | .dictionary d, h => by
    have h1 := commas_length (debugEntries shown d)
    have h2 := debugEntries_length shown d h
    simp only [Metainfo.debug, Metainfo.units, List.length_append]
    show 12 + _ + 2 + 2 ≤ _
    omega
  | .nothing, _ => by rw [Metainfo.debug, Metainfo.units]; decide
theorem debugElems_length (shown : Nat → Bool) : (l : List Metainfo) → IntsFitElems l →
    ((debugElems shown l).map fun x => x.length + 2).sum ≤ 32 * unitsElems l
  | [], _ => by simp [debugElems]
  | v :: t, h => by
    have h1 := debug_length shown v h.1
    have h2 := debugElems_length shown t h.2
    simp only [debugElems, unitsElems, List.map_cons, List.sum_cons]
    omega
theorem debugEntries_length (shown : Nat → Bool) : (d : List (Bytes × Metainfo)) → IntsFitEntries d →
    ((debugEntries shown d).map fun x => x.length + 2).sum ≤ 32 * unitsEntries d
  | [], _ => by simp [debugEntries]
  | (k, v) :: t, h => by
    have h1 := debug_length shown v h.1
    have h2 := debugEntries_length shown t h.2
    have h3 := debugStr_length shown k
    simp only [debugEntries, unitsEntries, List.map_cons, List.sum_cons, List.length_append]
    have : (b!": ").length = 2 := rfl
    omega
end

/-! ### Errors of the decoder -/

/-- What is printed of an error is not longer than what was decoded. -/
def errSize : DecoderError → Nat
  | .badNumberFromString n | .noStringFound n | .badStringFromBytes n => n
  | .badNumberDecode s => s.length

theorem digits_err {c : Bytes} {p : Nat} {e : DecoderError} (h : Decoder.getConsecutiveDigits c p = .err e) : errSize e ≤ c.length := by
  unfold Decoder.getConsecutiveDigits at h
  split at h
  · cases h
  · rename_i k hk
    unfold slice at h
    split at h
    · rename_i hs
      simp only [Res.bind_ok] at h
      split at h
      · split at h
        · cases h
        · cases h; simp only [errSize, List.length_take, List.length_drop]; omega
      · cases h; exact hs.2
    · cases h

theorem digits_ok {c : Bytes} {p n p1 : Nat} (h : Decoder.getConsecutiveDigits c p = .ok (n, p1)) : p1 ≤ c.length := by
  unfold Decoder.getConsecutiveDigits at h
  split at h
  · cases h
  · rename_i k hk
    unfold slice at h
    split at h
    · rename_i hs
      simp only [Res.bind_ok] at h
      split at h
      · split at h
        · cases h; exact hs.2
        · cases h
      · cases h
    · cases h

theorem parseString_err {c : Bytes} {p : Nat} {e : DecoderError} (h : Decoder.parseString c p = .err e) : errSize e ≤ c.length := by
  unfold Decoder.parseString at h
  cases hd : Decoder.getConsecutiveDigits c p with
  | ok a =>
    obtain ⟨n, p1⟩ := a
    rw [hd] at h
    simp only [Res.bind_ok, slice] at h
    split at h <;> simp at h
  | err e' => rw [hd] at h; simp at h; subst h; exact digits_err hd
  | panic => rw [hd] at h; simp at h
  | hang => rw [hd] at h; simp at h

theorem parseString_ok_le {c : Bytes} {p : Nat} {s : Bytes} {p1 : Nat} (h : Decoder.parseString c p = .ok (s, p1)) : p1 ≤ c.length := by
  unfold Decoder.parseString at h
  cases hd : Decoder.getConsecutiveDigits c p with
  | ok a =>
    obtain ⟨n, p1⟩ := a
    rw [hd] at h
    simp only [Res.bind_ok, slice] at h
    split at h
    · rename_i hs
      simp only [Res.bind_ok, Res.ok.injEq, Prod.mk.injEq] at h
      omega
    · simp at h
  | err e' => rw [hd] at h; simp at h
  | panic => rw [hd] at h; simp at h
  | hang => rw [hd] at h; simp at h

theorem decode_err (f : Nat) : (∀ c p e, Decoder.decodeF f c p = .err e → errSize e ≤ c.length) ∧
    (∀ c p acc e, Decoder.listLoop f c p acc = .err e → errSize e ≤ c.length) ∧
    (∀ c p acc e, Decoder.dictLoop f c p acc = .err e → errSize e ≤ c.length) := by
  induction f with
  | zero => refine ⟨?_, ?_, ?_⟩ <;> intros <;> simp_all [Decoder.decodeF, Decoder.listLoop, Decoder.dictLoop]
  | succ f ih =>
    obtain ⟨ih1, ih2, ih3⟩ := ih
    refine ⟨?_, ?_, ?_⟩
    · intro c p e h
      rw [Decoder.decodeF] at h
      split at h
      · cases h
      · split at h
        · unfold Decoder.parseInteger at h
          cases hd : Decoder.getConsecutiveDigits c (p + 1) with
          | ok a => rw [hd] at h; simp at h
          | err e' => rw [hd] at h; simp at h; subst h; exact digits_err hd
          | panic => rw [hd] at h; simp at h
          | hang => rw [hd] at h; simp at h
        · split at h
          · exact ih2 _ _ _ _ h
          · split at h
            · exact ih3 _ _ _ _ h
            · split at h
              · cases hd : Decoder.parseString c p with
                | ok a => rw [hd] at h; simp at h
                | err e' => rw [hd] at h; simp at h; subst h; exact parseString_err hd
                | panic => rw [hd] at h; simp at h
                | hang => rw [hd] at h; simp at h
              · cases h
    · intro c p acc e h
      rw [Decoder.listLoop] at h
      split at h
      · cases h
      · split at h
        · cases h
        · cases hd : Decoder.decodeF f c p with
          | ok a => rw [hd] at h; simp only [Res.bind_ok] at h; exact ih2 _ _ _ _ h
          | err e' => rw [hd] at h; simp at h; subst h; exact ih1 _ _ _ hd
          | panic => rw [hd] at h; simp at h
          | hang => rw [hd] at h; simp at h
    · intro c p acc e h
      rw [Decoder.dictLoop] at h
      split at h
      · cases h
      · split at h
        · cases h
        · cases hd : Decoder.parseString c p with
          | ok a =>
            obtain ⟨k, p1⟩ := a
            rw [hd] at h
            simp only [Res.bind_ok] at h
            split at h
            · cases hv : Decoder.decodeF f c p1 with
              | ok a => rw [hv] at h; simp only [Res.bind_ok] at h; exact ih3 _ _ _ _ h
              | err e' => rw [hv] at h; simp at h; subst h; exact ih1 _ _ _ hv
              | panic => rw [hv] at h; simp at h
              | hang => rw [hv] at h; simp at h
            · cases h; exact parseString_ok_le hd
          | err e' => rw [hd] at h; simp at h; subst h; exact parseString_err hd
          | panic => rw [hd] at h; simp at h
          | hang => rw [hd] at h; simp at h

theorem display_length (e : DecoderError) : e.display.length ≤ errSize e + 50 := by
  cases e with
  | badNumberDecode s => simp only [DecoderError.display, errSize, List.length_append]; show 24 + _ ≤ _; omega
  | badNumberFromString n =>
    have := decimal_length_le n
    simp only [DecoderError.display, errSize, List.length_append]; show 36 + _ ≤ _; omega
  | noStringFound n =>
    have := decimal_length_le n
    simp only [DecoderError.display, errSize, List.length_append]; show 40 + _ ≤ _; omega
  | badStringFromBytes n =>
    have := decimal_length_le n
    simp only [DecoderError.display, errSize, List.length_append]; show 46 + _ ≤ _; omega

/-! ### Records -/

/-- Times as the log prints them. -/
def LogTime.Valid (t : LogTime) : Prop :=
  t.year < 10000 ∧ t.month < 100 ∧ t.day < 100 ∧ t.hour < 100 ∧ t.minute < 100 ∧ t.second < 100 ∧ t.milli < 1000

theorem padDecimal_length (k n : Nat) (hk : 0 < k) (h : n < 10 ^ k) : (padDecimal k n).length = k := by
  have := decimal_length_lt k n hk h
  unfold padDecimal
  simp only [List.length_append, List.length_replicate]
  omega

theorem time_length {t : LogTime} (h : t.Valid) : t.text.length = 23 := by
  obtain ⟨h1, h2, h3, h4, h5, h6, h7⟩ := h
  unfold LogTime.text
  simp only [List.length_append]
  rw [padDecimal_length 4 _ (by omega) h1, padDecimal_length 2 _ (by omega) h2, padDecimal_length 2 _ (by omega) h3,
    padDecimal_length 2 _ (by omega) h4, padDecimal_length 2 _ (by omega) h5, padDecimal_length 2 _ (by omega) h6, padDecimal_length 3 _ (by omega) h7]
  rfl

/-- What a record takes in the log, at most. -/
def LogRec.cost (shown : Nat → Bool) (r : LogRec) : Nat := (r.args shown).length + 66

/-- What some records take in the log, at most. -/
def logCost (shown : Nat → Bool) (rs : List LogRec) : Nat := (rs.map (LogRec.cost shown)).sum

theorem logCost_append (shown : Nat → Bool) (a b : List LogRec) : logCost shown (a ++ b) = logCost shown a + logCost shown b := by
  simp [logCost]

theorem logCost_cons (shown : Nat → Bool) (a : LogRec) (b : List LogRec) : logCost shown (a :: b) = a.cost shown + logCost shown b := by
  simp [logCost]

theorem logCost_nil (shown : Nat → Bool) : logCost shown [] = 0 := rfl

/-- A line is not longer than the cost of its record. -/
theorem line_length (shown : Nat → Bool) {t : LogTime} (ht : t.Valid) (r : LogRec) :
    (r.line shown t).length ≤ r.cost shown := by
  have h1 := time_length ht
  have h2 : r.place.1.length ≤ 26 := by cases r <;> (simp only [LogRec.place]; decide)
  have h3 : (decimal r.place.2).length ≤ 3 := by
    refine decimal_length_lt 3 _ (by omega) ?_
    cases r with
    | noMessage b => cases b <;> decide
    | gotMessage p id => simp only [LogRec.place]; repeat' split
                         all_goals omega
    | _ => simp only [LogRec.place]; omega
  have h4 : r.level.length ≤ 5 := by cases r <;> (simp only [LogRec.level]; decide)
  unfold LogRec.line LogRec.cost
  simp only [List.length_append]
  show _ + 1 + _ + 1 + _ + 2 + _ + 4 + _ + 1 ≤ _
  omega

/-- The lines of some records. -/
theorem lines_length (shown : Nat → Bool) (trs : List (LogTime × LogRec)) (ht : ∀ x ∈ trs, x.1.Valid) :
    (trs.map fun x => x.2.line shown x.1).flatten.length ≤ logCost shown (trs.map Prod.snd) := by
  induction trs with
  | nil => simp
  | cons x t ih =>
    have h1 := line_length shown (ht x (by simp)) x.2
    have h2 := ih (fun y hy => ht y (List.mem_cons_of_mem _ hy))
    simp only [List.map_cons, List.flatten_cons, List.length_append, logCost_cons]
    omega

end RustBit
