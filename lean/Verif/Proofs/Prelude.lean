/- Lemmas about the shared vocabulary. -/
import Verif.Model.Bencode
import Verif.Spec.Bencode

namespace RustBit

theorem isDigit_iff (b : UInt8) : isDigit b = true ↔ 48 ≤ b.toNat ∧ b.toNat ≤ 57 := by
  simp [isDigit, UInt8.le_iff_toNat_le]

/-- Value of digits given least significant first. -/
def valueRev : Bytes → Nat
  | [] => 0
  | d :: t => (d.toNat - 48) + 10 * valueRev t

theorem value_append_singleton (l : Bytes) (d : UInt8) :
    Spec.value (l ++ [d]) = 10 * Spec.value l + (d.toNat - 48) := by
  simp [Spec.value]

theorem value_reverse (l : Bytes) : Spec.value l.reverse = valueRev l := by
  induction l with
  | nil => rfl
  | cons d t ih => simp only [List.reverse_cons, value_append_singleton, valueRev, ih]; omega

theorem toNat_digit (k : Nat) : (UInt8.ofNat (48 + k % 10)).toNat = 48 + k % 10 := by
  simp only [UInt8.toNat_ofNat']
  omega

theorem valueRev_digitsRev (f n : Nat) (h : n < f) : valueRev (digitsRev f n) = n := by
  induction f generalizing n with
  | zero => omega
  | succ f ih =>
    simp only [digitsRev, valueRev, toNat_digit]
    split
    · simp only [valueRev]; omega
    · rw [ih _ (by omega)]; omega

theorem digitsRev_digits (f n : Nat) : ∀ d ∈ digitsRev f n, 48 ≤ d.toNat ∧ d.toNat ≤ 57 := by
  induction f generalizing n with
  | zero => simp [digitsRev]
  | succ f ih =>
    intro d hd
    simp only [digitsRev, List.mem_cons] at hd
    rcases hd with rfl | hd
    · rw [toNat_digit]; omega
    · split at hd
      · simp at hd
      · exact ih _ d hd

theorem digitsRev_ne_nil (f n : Nat) (h : n < f) : digitsRev f n ≠ [] := by
  cases f with
  | zero => omega
  | succ f => simp [digitsRev]

theorem digitsRev_getLast (f n : Nat) (h : n < f) (hn : 0 < n) :
    (digitsRev f n).getLast? ≠ some 48 := by
  induction f generalizing n with
  | zero => omega
  | succ f ih =>
    simp only [digitsRev]
    by_cases h0 : n / 10 = 0
    · simp only [h0, if_true]
      intro hc
      have hc : UInt8.ofNat (48 + n % 10) = 48 := by simpa using hc
      have := congrArg UInt8.toNat hc
      rw [toNat_digit] at this
      simp at this
      omega
    · simp only [h0, if_false]
      have hne := digitsRev_ne_nil f (n / 10) (by omega)
      have := ih (n / 10) (by omega) (by omega)
      cases hd : digitsRev f (n / 10) with
      | nil => exact absurd hd hne
      | cons a t => rw [hd] at this; simpa [List.getLast?_cons_cons] using this

/-- `format!("{}", n)` is the decimal notation of `n`. -/
theorem isDecimal_decimal (n : Nat) : Spec.IsDecimal n (decimal n) := by
  refine ⟨?_, ?_, ?_, ?_⟩
  · simp [decimal, digitsRev_ne_nil]
  · intro d hd
    exact digitsRev_digits _ _ d (by simpa [decimal] using hd)
  · rw [decimal, value_reverse, valueRev_digitsRev _ _ (by omega)]
  · intro h
    by_cases hn : n = 0
    · subst hn; rfl
    · exfalso
      refine digitsRev_getLast (n + 1) n (by omega) (by omega) ?_
      simpa [decimal] using h

theorem foldl_value_mono (t : Bytes) : ∀ a : Nat,
    a ≤ t.foldl (fun a d => 10 * a + (d.toNat - 48)) a := by
  induction t with
  | nil => intro a; simp
  | cons b t ih => intro a; simp only [List.foldl_cons]; exact Nat.le_trans (by omega) (ih _)

theorem foldl_value_split (t : Bytes) : ∀ a : Nat,
    t.foldl (fun a d => 10 * a + (d.toNat - 48)) a = a * 10 ^ t.length + Spec.value t := by
  induction t with
  | nil => intro a; simp [Spec.value]
  | cons b t ih =>
    intro a
    simp only [List.foldl_cons, Spec.value, List.length_cons]
    rw [ih, ih (10 * 0 + (b.toNat - 48))]
    rw [Nat.pow_succ, Nat.add_mul, Nat.mul_comm 10 a, Nat.mul_assoc a 10, Nat.mul_comm 10 (10 ^ _)]
    simp [Nat.add_assoc]

theorem value_lt (t : Bytes) (h : ∀ d ∈ t, 48 ≤ d.toNat ∧ d.toNat ≤ 57) :
    Spec.value t < 10 ^ t.length := by
  induction t with
  | nil => simp [Spec.value]
  | cons b t ih =>
    have hb := h b (by simp)
    have ih := ih (fun d hd => h d (by simp [hd]))
    have e : Spec.value (b :: t) = (b.toNat - 48) * 10 ^ t.length + Spec.value t := by
      have := foldl_value_split t (10 * 0 + (b.toNat - 48))
      simpa [Spec.value] using this
    rw [e, List.length_cons, Nat.pow_succ]
    have : (b.toNat - 48) * 10 ^ t.length ≤ 9 * 10 ^ t.length := Nat.mul_le_mul_right _ (by omega)
    omega

theorem value_cons (b : UInt8) (t : Bytes) :
    Spec.value (b :: t) = (b.toNat - 48) * 10 ^ t.length + Spec.value t := by
  have := foldl_value_split t (10 * 0 + (b.toNat - 48))
  simpa [Spec.value] using this

/-- Decimal notation is unique. -/
theorem isDecimal_unique {n : Nat} {ds es : Bytes}
    (h1 : Spec.IsDecimal n ds) (h2 : Spec.IsDecimal n es) : ds = es := by
  obtain ⟨n1, d1, v1, z1⟩ := h1
  obtain ⟨n2, d2, v2, z2⟩ := h2
  -- same length
  have low : ∀ (l : Bytes), l ≠ [] → (∀ d ∈ l, 48 ≤ d.toNat ∧ d.toNat ≤ 57) →
      (l.head? = some 48 → l = [48]) → l = [48] ∨ 10 ^ (l.length - 1) ≤ Spec.value l := by
    intro l hl hd hz
    cases l with
    | nil => exact absurd rfl hl
    | cons b t =>
      by_cases hb : b = 48
      · left; exact hz (by simp [hb])
      · right
        rw [value_cons]
        have h48 := hd b (by simp)
        have hb' : b.toNat ≠ 48 := fun h => hb (UInt8.toNat_inj.mp h)
        have : 1 * 10 ^ t.length ≤ (b.toNat - 48) * 10 ^ t.length :=
          Nat.mul_le_mul_right _ (by omega)
        simp only [List.length_cons, Nat.add_sub_cancel]
        omega
  have inj : ∀ (l m : Bytes), l.length = m.length → (∀ d ∈ l, 48 ≤ d.toNat ∧ d.toNat ≤ 57) →
      (∀ d ∈ m, 48 ≤ d.toNat ∧ d.toNat ≤ 57) → Spec.value l = Spec.value m → l = m := by
    intro l
    induction l with
    | nil => intro m hm _ _ _; exact (List.length_eq_zero_iff.mp hm.symm).symm
    | cons a l ih =>
      intro m hm ha hb hv
      cases m with
      | nil => simp at hm
      | cons b m =>
        simp only [List.length_cons, Nat.add_right_cancel_iff] at hm
        rw [value_cons, value_cons] at hv
        have la := value_lt l (fun d hd => ha d (by simp [hd]))
        have lb := value_lt m (fun d hd => hb d (by simp [hd]))
        have ha0 := ha a (by simp)
        have hb0 := hb b (by simp)
        rw [hm] at la hv
        have e1 : ((a.toNat - 48) * 10 ^ m.length + Spec.value l) / 10 ^ m.length = a.toNat - 48 := by
          rw [Nat.add_comm, Nat.add_mul_div_right _ _ (Nat.pow_pos (by omega)),
            Nat.div_eq_of_lt la]; omega
        have e2 : ((b.toNat - 48) * 10 ^ m.length + Spec.value m) / 10 ^ m.length = b.toNat - 48 := by
          rw [Nat.add_comm, Nat.add_mul_div_right _ _ (Nat.pow_pos (by omega)),
            Nat.div_eq_of_lt lb]; omega
        have hab : a.toNat = b.toNat := by
          have := congrArg (· / 10 ^ m.length) hv
          simp only [e1, e2] at this
          omega
        have hab' : a = b := UInt8.toNat_inj.mp hab
        subst hab'
        rw [ih m hm (fun d hd => ha d (by simp [hd])) (fun d hd => hb d (by simp [hd])) (by omega)]
  apply inj _ _ _ d1 d2 (by omega)
  have len : ∀ (l m : Bytes), l ≠ [] → m ≠ [] → (∀ d ∈ l, 48 ≤ d.toNat ∧ d.toNat ≤ 57) →
      (∀ d ∈ m, 48 ≤ d.toNat ∧ d.toNat ≤ 57) → (l.head? = some 48 → l = [48]) →
      Spec.value l = Spec.value m → l.length ≤ m.length := by
    intro l m hl hm dl dm zl hv
    rcases low l hl dl zl with h | h
    · subst h
      cases m with
      | nil => exact absurd rfl hm
      | cons => simp
    · have hlt := value_lt m dm
      rw [hv] at h
      have := Nat.lt_of_le_of_lt h hlt
      have := (Nat.pow_lt_pow_iff_right (by omega : 1 < 10)).mp this
      omega
  exact Nat.le_antisymm (len _ _ n1 n2 d1 d2 z1 (by omega)) (len _ _ n2 n1 d2 d1 z2 (by omega))

theorem value_foldl' (s : Bytes) (a : Nat) :
    s.foldl (fun acc b => acc * 10 + (b.toNat - 48)) a =
      s.foldl (fun a d => 10 * a + (d.toNat - 48)) a := by
  induction s generalizing a with
  | nil => rfl
  | cons b t ih => simp only [List.foldl_cons]; rw [ih, Nat.mul_comm]

theorem parseUsize_eq (s : Bytes) :
    Decoder.parseUsize s =
      if s = [] then none else if Spec.value s < 2 ^ 64 then some (Spec.value s) else none := by
  by_cases h : s = []
  · simp [Decoder.parseUsize, h]
  · simp only [Decoder.parseUsize, value_foldl', Spec.value, h, if_false]
    rfl

theorem parseUsize_some {s : Bytes} {n : Nat} :
    Decoder.parseUsize s = some n ↔ s ≠ [] ∧ Spec.value s = n ∧ n < 2 ^ 64 := by
  rw [parseUsize_eq]
  by_cases h : s = []
  · simp [h]
  · simp only [h, if_false, ne_eq, not_false_eq_true, true_and]
    by_cases h2 : Spec.value s < 2 ^ 64
    · simp only [h2, if_true, Option.some.injEq]
      constructor
      · rintro rfl; exact ⟨rfl, h2⟩
      · rintro ⟨rfl, _⟩; rfl
    · simp only [h2, if_false]
      constructor
      · intro h; cases h
      · rintro ⟨rfl, h3⟩; exact absurd h3 h2

theorem countDigits_append (ds : Bytes) (x : UInt8) (t : Bytes)
    (h : ∀ d ∈ ds, isDigit d = true) (hx : isDigit x = false) :
    Decoder.countDigits (ds ++ x :: t) = some ds.length := by
  induction ds with
  | nil => simp [Decoder.countDigits, hx]
  | cons d ds ih =>
    have hd := h d (by simp)
    have := ih (fun d hd => h d (by simp [hd]))
    simp [Decoder.countDigits, hd, this]

/-- What a successful digit scan says about the bytes scanned. -/
theorem countDigits_some {l : Bytes} {k : Nat} (h : Decoder.countDigits l = some k) :
    ∃ x t, l = l.take k ++ x :: t ∧ (∀ d ∈ l.take k, isDigit d = true) ∧ isDigit x = false ∧
      k < l.length := by
  induction l generalizing k with
  | nil => simp [Decoder.countDigits] at h
  | cons b l ih =>
    simp only [Decoder.countDigits] at h
    split at h
    · rename_i hb
      cases hc : Decoder.countDigits l with
      | none => simp [hc] at h
      | some j =>
        simp [hc] at h
        subst h
        obtain ⟨x, t, e, hd, hx, hl⟩ := ih hc
        refine ⟨x, t, ?_, ?_, hx, by simp; omega⟩
        · simp only [List.take_succ_cons, List.cons_append, List.cons.injEq, true_and]; exact e
        · intro d hd'
          simp only [List.take_succ_cons, List.mem_cons] at hd'
          rcases hd' with rfl | hd'
          · exact hb
          · exact hd d hd'
    · rename_i hb
      simp at h
      subst h
      exact ⟨b, l, by simp, by simp, by simpa using hb, by simp⟩

theorem validUtf8_of_ascii (s : Bytes) (h : ∀ b ∈ s, b < 0x80) : validUtf8 s = true := by
  induction s with
  | nil => rfl
  | cons b t ih =>
    have hb := h b (by simp)
    unfold validUtf8
    simp only [hb, if_true]
    exact ih (fun b hb => h b (by simp [hb]))

theorem validUtf8_digits (s : Bytes) (h : ∀ d ∈ s, isDigit d = true) : validUtf8 s = true := by
  apply validUtf8_of_ascii
  intro b hb
  have := (isDigit_iff b).mp (h b hb)
  rw [UInt8.lt_iff_toNat_lt]
  have : (0x80 : UInt8).toNat = 128 := rfl
  omega

theorem slice_ok {α ε : Type} {l : List α} {i j : Nat} {r : List α} :
    (slice l i j : Res ε _) = .ok r ↔ i ≤ j ∧ j ≤ l.length ∧ r = (l.take j).drop i := by
  unfold slice
  split
  · rename_i h
    simp only [Res.ok.injEq]
    exact ⟨fun e => ⟨h.1, h.2, e.symm⟩, fun e => e.2.2.symm⟩
  · rename_i h
    simp only [reduceCtorEq, false_iff]
    intro e; exact h ⟨e.1, e.2.1⟩

theorem slice_of_le {α ε : Type} {l : List α} {i j : Nat} (h1 : i ≤ j) (h2 : j ≤ l.length) :
    (slice l i j : Res ε _) = .ok ((l.take j).drop i) := by
  simp [slice, h1, h2]

theorem slice_ne_hang {α ε : Type} (l : List α) (i j : Nat) : (slice l i j : Res ε _) ≠ .hang := by
  unfold slice; split <;> simp

theorem slice_ne_err {α ε : Type} (l : List α) (i j : Nat) (e : ε) : slice l i j ≠ .err e := by
  unfold slice; split <;> simp

theorem mapGet_mapInsert {α : Type} (m : List (Bytes × α)) (k k' : Bytes) (v : α) :
    mapGet (mapInsert m k v) k' = if k' = k then some v else mapGet m k' := by
  induction m with
  | nil => simp [mapInsert, mapGet, eq_comm]
  | cons a t ih =>
    obtain ⟨k0, v0⟩ := a
    simp only [mapInsert]
    by_cases h : k0 = k
    · subst h
      simp only [if_true, mapGet]
      by_cases h' : k' = k0
      · subst h'; simp
      · have h'' : k0 ≠ k' := fun e => h' e.symm
        simp [h', h'']
    · simp only [h, if_false, mapGet, ih]
      by_cases h' : k0 = k'
      · subst h'; simp [h]
      · simp [h']

theorem mapInsert_of_not_mem {α : Type} (m : List (Bytes × α)) (k : Bytes) (v : α)
    (h : k ∉ m.map Prod.fst) : mapInsert m k v = m ++ [(k, v)] := by
  induction m with
  | nil => rfl
  | cons a t ih =>
    obtain ⟨k0, v0⟩ := a
    simp only [List.map_cons, List.mem_cons, not_or] at h
    simp [mapInsert, Ne.symm h.1, ih h.2]

theorem mapInsert_keys {α : Type} (m : List (Bytes × α)) (k : Bytes) (v : α) :
    (mapInsert m k v).map Prod.fst =
      if k ∈ m.map Prod.fst then m.map Prod.fst else m.map Prod.fst ++ [k] := by
  induction m with
  | nil => simp [mapInsert]
  | cons a t ih =>
    obtain ⟨k0, v0⟩ := a
    simp only [mapInsert]
    by_cases h : k0 = k
    · subst h; simp
    · simp only [h, if_false, List.map_cons, ih, List.mem_cons]
      have : (k = k0) = False := by simp [Ne.symm h]
      simp only [this, false_or]
      split <;> simp

theorem mapInsert_nodup {α : Type} (m : List (Bytes × α)) (k : Bytes) (v : α)
    (h : (m.map Prod.fst).Nodup) : ((mapInsert m k v).map Prod.fst).Nodup := by
  rw [mapInsert_keys]
  split
  · exact h
  · rename_i hk
    rw [List.nodup_append]
    refine ⟨h, by simp, ?_⟩
    intro a ha b hb
    simp at hb
    subst hb
    intro e; subst e; exact hk ha

theorem bind_eq_ok {ε α β : Type} {x : Res ε α} {f : α → Res ε β} {b : β} (h : (x >>= f) = .ok b) :
    ∃ a, x = .ok a ∧ f a = .ok b := by
  cases x with
  | ok a => exact ⟨a, rfl, h⟩
  | err e => cases h
  | panic => cases h
  | hang => cases h

end RustBit
