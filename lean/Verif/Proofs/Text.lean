import Verif.Spec.Text

/-!
The validation automaton accepts exactly the UTF-8 forms of scalar values.
-/

namespace RustBit
open Spec

theorem byte_le (a b : UInt8) : (decide (a ≤ b)) = decide (a.toNat ≤ b.toNat) := by
  simp [UInt8.le_iff_toNat_le]

theorem toNat_ofNat_lt {n : Nat} (h : n < 256) : (UInt8.ofNat n).toNat = n := by
  rw [UInt8.toNat_ofNat']
  omega

theorem isCont_iff (b : UInt8) : isCont b = true ↔ 0x80 ≤ b.toNat ∧ b.toNat < 0xC0 := by
  simp only [isCont, Bool.and_eq_true, decide_eq_true_eq, UInt8.le_iff_toNat_le]
  have h1 : (0x80 : UInt8).toNat = 0x80 := rfl
  have h2 : (0xBF : UInt8).toNat = 0xBF := rfl
  rw [h1, h2]
  omega

theorem utf8Lead3_iff (b c : UInt8) : utf8Lead3 b c = true ↔
    0xE0 ≤ b.toNat ∧ b.toNat < 0xF0 ∧ 0x80 ≤ c.toNat ∧ c.toNat < 0xC0 ∧
      (b.toNat = 0xE0 → 0xA0 ≤ c.toNat) ∧ (b.toNat = 0xED → c.toNat < 0xA0) := by
  simp only [utf8Lead3, Bool.and_eq_true, Bool.or_eq_true, decide_eq_true_eq, UInt8.le_iff_toNat_le, isCont_iff,
    beq_iff_eq, ← UInt8.toNat_inj]
  simp only [show (0xE0 : UInt8).toNat = 0xE0 from rfl, show (0xA0 : UInt8).toNat = 0xA0 from rfl,
    show (0xBF : UInt8).toNat = 0xBF from rfl, show (0xE1 : UInt8).toNat = 0xE1 from rfl,
    show (0xEC : UInt8).toNat = 0xEC from rfl, show (0xED : UInt8).toNat = 0xED from rfl,
    show (0x80 : UInt8).toNat = 0x80 from rfl, show (0x9F : UInt8).toNat = 0x9F from rfl,
    show (0xEE : UInt8).toNat = 0xEE from rfl, show (0xEF : UInt8).toNat = 0xEF from rfl]
  omega

theorem utf8Lead4_iff (b c : UInt8) : utf8Lead4 b c = true ↔
    0xF0 ≤ b.toNat ∧ b.toNat < 0xF5 ∧ 0x80 ≤ c.toNat ∧ c.toNat < 0xC0 ∧
      (b.toNat = 0xF0 → 0x90 ≤ c.toNat) ∧ (b.toNat = 0xF4 → c.toNat < 0x90) := by
  simp only [utf8Lead4, Bool.and_eq_true, Bool.or_eq_true, decide_eq_true_eq, UInt8.le_iff_toNat_le, isCont_iff,
    beq_iff_eq, ← UInt8.toNat_inj]
  simp only [show (0xF0 : UInt8).toNat = 0xF0 from rfl, show (0x90 : UInt8).toNat = 0x90 from rfl,
    show (0xBF : UInt8).toNat = 0xBF from rfl, show (0xF1 : UInt8).toNat = 0xF1 from rfl,
    show (0xF3 : UInt8).toNat = 0xF3 from rfl, show (0xF4 : UInt8).toNat = 0xF4 from rfl,
    show (0x80 : UInt8).toNat = 0x80 from rfl, show (0x8F : UInt8).toNat = 0x8F from rfl]
  omega

theorem lead2_iff (b : UInt8) : (decide (0xC2 ≤ b) && decide (b ≤ 0xDF)) = true ↔ 0xC2 ≤ b.toNat ∧ b.toNat < 0xE0 := by
  simp only [Bool.and_eq_true, decide_eq_true_eq, UInt8.le_iff_toNat_le]
  simp only [show (0xC2 : UInt8).toNat = 0xC2 from rfl, show (0xDF : UInt8).toNat = 0xDF from rfl]
  omega

theorem lt80_iff (b : UInt8) : b < 0x80 ↔ b.toNat < 0x80 := by
  rw [UInt8.lt_iff_toNat_lt]; rfl

/-- One scalar value at the front is consumed. -/
theorem validUtf8_utf8 (n : Nat) (hn : Scalar n) (rest : Bytes) : validUtf8 (utf8 n ++ rest) = validUtf8 rest := by
  unfold Scalar at hn
  unfold utf8
  split
  · show validUtf8 (_ :: rest) = _
    rw [validUtf8.eq_def]
    simp only
    rw [if_pos (by rw [lt80_iff, toNat_ofNat_lt (by omega)]; assumption)]
  · split
    · have ha := toNat_ofNat_lt (n := 0xC0 + n / 64) (by omega)
      have hb := toNat_ofNat_lt (n := 0x80 + n % 64) (by omega)
      show validUtf8 (_ :: _ :: rest) = _
      rw [validUtf8.eq_def]
      simp only
      rw [if_neg (by rw [lt80_iff]; omega)]
      rw [if_pos ((lead2_iff _).mpr (by omega)), (isCont_iff _).mpr (by omega), Bool.true_and]
    · split
      · have ha := toNat_ofNat_lt (n := 0xE0 + n / 4096) (by omega)
        have hb := toNat_ofNat_lt (n := 0x80 + n / 64 % 64) (by omega)
        have hc := toNat_ofNat_lt (n := 0x80 + n % 64) (by omega)
        show validUtf8 (_ :: _ :: _ :: rest) = _
        rw [validUtf8.eq_def]
        simp only
        rw [if_neg (by rw [lt80_iff]; omega)]
        rw [if_neg (by rw [lead2_iff]; omega), if_pos ((utf8Lead3_iff _ _).mpr (by omega)),
          (isCont_iff _).mpr (by omega), Bool.true_and]
      · have ha := toNat_ofNat_lt (n := 0xF0 + n / 262144) (by omega)
        have hb := toNat_ofNat_lt (n := 0x80 + n / 4096 % 64) (by omega)
        have hc := toNat_ofNat_lt (n := 0x80 + n / 64 % 64) (by omega)
        have hd := toNat_ofNat_lt (n := 0x80 + n % 64) (by omega)
        show validUtf8 (_ :: _ :: _ :: _ :: rest) = _
        rw [validUtf8.eq_def]
        simp only
        rw [if_neg (by rw [lt80_iff]; omega)]
        rw [if_neg (by rw [lead2_iff]; omega), if_neg (by rw [utf8Lead3_iff]; omega),
          (utf8Lead4_iff _ _).mpr (by omega), (isCont_iff _).mpr (by omega), (isCont_iff _).mpr (by omega)]
        rfl

theorem ofNat_eq {k : Nat} {b : UInt8} (h : k = b.toNat) : UInt8.ofNat k = b := by
  subst h; exact UInt8.ofNat_toNat

theorem text_of_valid_aux (k : Nat) : ∀ bs : Bytes, bs.length < k → validUtf8 bs = true → ∃ cs, IsText cs bs := by
  induction k with
  | zero => intro bs h; omega
  | succ k ih =>
  intro bs hl h
  have cons : ∀ (n : Nat) (hd t : Bytes), Scalar n → utf8 n = hd → (∃ cs, IsText cs t) → ∃ cs, IsText cs (hd ++ t) := by
    rintro n hd t hn rfl ⟨cs, hs, rfl⟩
    exact ⟨n :: cs, by
      intro k hk
      rcases List.mem_cons.mp hk with rfl | hk
      · exact hn
      · exact hs k hk, rfl⟩
  match bs, hl, h with
  | [], _, _ => exact ⟨[], by simp, rfl⟩
  | b :: t, hl, h =>
    rw [validUtf8.eq_def] at h
    simp only at h
    by_cases h1 : b < 0x80
    · rw [if_pos h1] at h
      rw [lt80_iff] at h1
      refine cons b.toNat [b] t (by unfold Scalar; omega) ?_ (ih t (by simp only [List.length_cons] at hl; omega) h)
      unfold utf8
      rw [if_pos h1, ofNat_eq rfl]
    · rw [if_neg h1] at h
      rw [lt80_iff] at h1
      match t, hl, h with
      | c :: t2, hl, h =>
        simp only at h
        by_cases h2 : (decide (0xC2 ≤ b) && decide (b ≤ 0xDF)) = true
        · rw [if_pos h2, Bool.and_eq_true, isCont_iff] at h
          rw [lead2_iff] at h2
          have hlt := b.toNat_lt
          refine cons ((b.toNat - 0xC0) * 64 + (c.toNat - 0x80)) [b, c] t2 (by unfold Scalar; omega) ?_
            (ih t2 (by simp only [List.length_cons] at hl; omega) h.2)
          unfold utf8
          rw [if_neg (by omega), if_pos (by omega), ofNat_eq (b := b) (by omega), ofNat_eq (b := c) (by omega)]
        · rw [if_neg h2] at h
          match t2, hl, h with
          | d :: t3, hl, h =>
            simp only at h
            by_cases h3 : utf8Lead3 b c = true
            · rw [if_pos h3, Bool.and_eq_true, isCont_iff] at h
              rw [utf8Lead3_iff] at h3
              refine cons ((b.toNat - 0xE0) * 4096 + (c.toNat - 0x80) * 64 + (d.toNat - 0x80)) [b, c, d] t3
                (by unfold Scalar; omega) ?_ (ih t3 (by simp only [List.length_cons] at hl; omega) h.2)
              unfold utf8
              rw [if_neg (by omega), if_neg (by omega), if_pos (by omega), ofNat_eq (b := b) (by omega),
                ofNat_eq (b := c) (by omega), ofNat_eq (b := d) (by omega)]
            · rw [if_neg h3] at h
              match t3, hl, h with
              | e :: t4, hl, h =>
                simp only [Bool.and_eq_true, isCont_iff, utf8Lead4_iff] at h
                refine cons ((b.toNat - 0xF0) * 262144 + (c.toNat - 0x80) * 4096 + (d.toNat - 0x80) * 64 +
                  (e.toNat - 0x80)) [b, c, d, e] t4 (by unfold Scalar; omega) ?_ (ih t4 (by simp only [List.length_cons] at hl; omega) h.2)
                unfold utf8
                rw [if_neg (by omega), if_neg (by omega), if_neg (by omega), ofNat_eq (b := b) (by omega),
                  ofNat_eq (b := c) (by omega), ofNat_eq (b := d) (by omega), ofNat_eq (b := e) (by omega)]

theorem text_of_valid (bs : Bytes) (h : validUtf8 bs = true) : ∃ cs, IsText cs bs :=
  text_of_valid_aux _ bs (Nat.lt_succ_self _) h

theorem valid_of_text {cs : List Nat} {bs : Bytes} (h : IsText cs bs) : validUtf8 bs = true := by
  obtain ⟨hs, rfl⟩ := h
  induction cs with
  | nil => rfl
  | cons n t ih =>
    rw [List.flatMap_cons, validUtf8_utf8 n (hs n (by simp))]
    exact ih (fun k hk => hs k (by simp [hk]))

theorem charCount_append (a b : Bytes) : charCount (a ++ b) = charCount a + charCount b := by
  simp [charCount]

theorem charCount_utf8 (n : Nat) (hn : Scalar n) : charCount (utf8 n) = 1 := by
  unfold Scalar at hn
  have nc : ∀ k, k < 0x80 ∨ 0xC0 ≤ k → k < 256 → isCont (UInt8.ofNat k) = false := by
    intro k hk h2
    rw [← Bool.not_eq_true, isCont_iff, toNat_ofNat_lt h2]; omega
  have yc : ∀ k, 0x80 ≤ k → k < 0xC0 → isCont (UInt8.ofNat k) = true := by
    intro k h1 h2
    rw [isCont_iff, toNat_ofNat_lt (by omega)]; omega
  unfold utf8 charCount
  split
  · simp [nc n (by omega) (by omega),
        Bool.not_false, Bool.not_true, List.length_cons, List.length_nil]
  · split
    · simp only [List.filter, nc (0xC0 + n / 64) (by omega) (by omega), yc (0x80 + n % 64) (by omega) (by omega),
        Bool.not_false, Bool.not_true, List.length_cons, List.length_nil]
    · split
      · simp only [List.filter, nc (0xE0 + n / 4096) (by omega) (by omega), yc (0x80 + n % 64) (by omega) (by omega),
          yc (0x80 + n / 64 % 64) (by omega) (by omega),
        Bool.not_false, Bool.not_true, List.length_cons, List.length_nil]
      · simp only [List.filter, nc (0xF0 + n / 262144) (by omega) (by omega), yc (0x80 + n % 64) (by omega) (by omega),
          yc (0x80 + n / 64 % 64) (by omega) (by omega), yc (0x80 + n / 4096 % 64) (by omega) (by omega),
        Bool.not_false, Bool.not_true, List.length_cons, List.length_nil]

/-- `chars().count()` is the number of scalar values. -/
theorem charCount_text {cs : List Nat} {bs : Bytes} (h : IsText cs bs) : charCount bs = cs.length := by
  obtain ⟨hs, rfl⟩ := h
  induction cs with
  | nil => rfl
  | cons n t ih =>
    rw [List.flatMap_cons, charCount_append, charCount_utf8 n (hs n (by simp)),
      ih (fun k hk => hs k (by simp [hk])), List.length_cons]
    omega

end RustBit
