/- The decoder reads no other documents than those it supports. -/
import Verif.Proofs.Grammar

namespace RustBit
open Spec Decoder

mutual
/-- The empty string does not occur as a value. -/
def NoEmptyM : Metainfo → Prop
  | .string s => s ≠ []
  | .list l => NoEmptyMElems l
  | .dictionary d => NoEmptyMEntries d
  | .integer _ => True
  | .nothing => True
def NoEmptyMElems : List Metainfo → Prop
  | [] => True
  | v :: t => NoEmptyM v ∧ NoEmptyMElems t
def NoEmptyMEntries : List (Bytes × Metainfo) → Prop
  | [] => True
  | (_, v) :: t => NoEmptyM v ∧ NoEmptyMEntries t
end

mutual
/-- The same for bencode values. -/
def NoEmptyB : BVal → Prop
  | .str s => s ≠ []
  | .list l => NoEmptyBElems l
  | .dict d => NoEmptyBEntries d
  | .int _ => True
def NoEmptyBElems : List BVal → Prop
  | [] => True
  | v :: t => NoEmptyB v ∧ NoEmptyBElems t
def NoEmptyBEntries : List (Bytes × BVal) → Prop
  | [] => True
  | (_, v) :: t => NoEmptyB v ∧ NoEmptyBEntries t
end

theorem noEmptyMEntries_mapInsert (m : List (Bytes × Metainfo)) (k : Bytes) (v : Metainfo) (h : NoEmptyMEntries m) (hv : NoEmptyM v) :
    NoEmptyMEntries (mapInsert m k v) := by
  induction m with
  | nil => exact ⟨hv, trivial⟩
  | cons a t ih =>
    obtain ⟨k', v'⟩ := a
    simp only [NoEmptyMEntries] at h
    unfold mapInsert
    split
    · exact ⟨hv, h.2⟩
    · exact ⟨h.1, ih h.2⟩

mutual
theorem lenient_noEmpty {v : Metainfo} {bs : Bytes} (h : Lenient v bs) : NoEmptyM v := by
  match h with
  | .int _ _ _ _ => trivial
  | .str hs hh =>
    intro e
    subst e
    obtain ⟨hne, hd, hx, hv, hlt⟩ := hs
    rename_i ds x
    cases ds with
    | nil => exact hne rfl
    | cons d t =>
      have h1 : isDigit d = true := hd d (by simp)
      have h2 : d ≠ 48 := by simpa using hh
      have h3 : 1 ≤ value (d :: t) := by
        have : ∀ (t : Bytes) (a : Nat), a ≤ t.foldl (fun a d => 10 * a + (d.toNat - 48)) a := by
          intro t
          induction t with
          | nil => intro a; simp
          | cons x t ih => intro a; exact Nat.le_trans (show a ≤ 10 * a + (x.toNat - 48) by omega) (ih _)
        have h4 := this t (10 * 0 + (d.toNat - 48))
        simp only [isDigit, Bool.and_eq_true, decide_eq_true_eq] at h1
        have h5 : 48 ≤ d.toNat := h1.1
        have h6 : d.toNat ≠ 48 := fun e => h2 (UInt8.toNat_inj.mp e)
        unfold value
        rw [List.foldl_cons]
        omega
      rw [hv] at h3
      simp at h3
  | .list hl => exact lenientElems_noEmpty hl
  | .dict hd => exact lenientEntries_noEmpty hd trivial
theorem lenientElems_noEmpty {l : List Metainfo} {bs : Bytes} (h : LenientElems l bs) : NoEmptyMElems l := by
  match h with
  | .nil => trivial
  | .cons hv hl => exact ⟨lenient_noEmpty hv, lenientElems_noEmpty hl⟩
theorem lenientEntries_noEmpty {acc m : List (Bytes × Metainfo)} {bs : Bytes} (h : LenientEntries acc m bs) (ha : NoEmptyMEntries acc) :
    NoEmptyMEntries m := by
  match h with
  | .nil => exact ha
  | .cons _ _ hv hl => exact lenientEntries_noEmpty hl (noEmptyMEntries_mapInsert _ _ _ ha (lenient_noEmpty hv))
  | .noValue _ _ _ hl => exact lenientEntries_noEmpty hl (noEmptyMEntries_mapInsert _ _ _ ha trivial)
end

mutual
theorem noEmptyB_of_toMeta (v : BVal) (h : NoEmptyM (toMeta v)) : NoEmptyB v := by
  match v with
  | .int _ => trivial
  | .str s => exact h
  | .list l => exact noEmptyBElems_of_toMeta l h
  | .dict d => exact noEmptyBEntries_of_toMeta d h
theorem noEmptyBElems_of_toMeta (l : List BVal) (h : NoEmptyMElems (toMetaElems l)) : NoEmptyBElems l := by
  match l with
  | [] => trivial
  | v :: t => exact ⟨noEmptyB_of_toMeta v h.1, noEmptyBElems_of_toMeta t h.2⟩
theorem noEmptyBEntries_of_toMeta (d : List (Bytes × BVal)) (h : NoEmptyMEntries (toMetaEntries d)) : NoEmptyBEntries d := by
  match d with
  | [] => trivial
  | (k, v) :: t => exact ⟨noEmptyB_of_toMeta v h.1, noEmptyBEntries_of_toMeta t h.2⟩
end

/-- Strings at the same place are the same. -/
theorem isStr_lenientStr {s s' bs bs' r r' : Bytes} (h : IsStr s bs) (h' : LenientStr s' bs') (e : bs ++ r = bs' ++ r') :
    s = s' ∧ bs = bs' ∧ r = r' ∧ s.length < 2 ^ 64 := by
  obtain ⟨ds, hd, rfl⟩ := h
  obtain ⟨hne, he, hx, hv, hlt⟩ := h'
  rename_i es x
  obtain ⟨rfl, rfl, e2⟩ := digits_prefix (x := 58) (y := x) (r := s ++ r) (r' := s' ++ r')
    (isDigit_of_isDecimal hd) he (by decide) hx (by simpa using e)
  have hl : s.length = s'.length := by rw [← hd.denotes, ← hv]
  obtain ⟨rfl, rfl⟩ := List.append_inj e2 hl
  exact ⟨rfl, rfl, rfl, hlt⟩

/-- A value other than the empty string begins with one of the bytes the decoder knows. -/
theorem isBencode_starts {v : BVal} {bs : Bytes} (h : IsBencode v bs) (hn : NoEmptyB v) : ∃ b t, bs = b :: t ∧ StartsValue b := by
  cases h with
  | int hi => exact ⟨105, _, rfl, .inl rfl⟩
  | list hi => exact ⟨108, _, rfl, .inr (.inl rfl)⟩
  | dict hi => exact ⟨100, _, rfl, .inr (.inr (.inl rfl))⟩
  | str hs =>
    obtain ⟨ds, hd, rfl⟩ := hs
    cases ds with
    | nil => exact absurd rfl hd.nonempty
    | cons d t =>
      refine ⟨d, _, rfl, .inr (.inr (.inr ?_))⟩
      have h1 := hd.digits d (by simp)
      by_cases h0 : d = 48
      · subst h0
        have := hd.noLeadingZero rfl
        simp only [List.cons.injEq, true_and] at this
        subst this
        have := hd.denotes
        simp only [value, List.foldl_cons, List.foldl_nil] at this
        exact absurd (List.eq_nil_of_length_eq_zero (by simpa using this.symm)) hn
      · have h6 : d.toNat ≠ 48 := fun e => h0 (UInt8.toNat_inj.mp e)
        constructor
        · show 49 ≤ d.toNat; omega
        · show d.toNat ≤ 57; omega

mutual
theorem readable_of_lenient {v : BVal} {m : Metainfo} {bs bs' r r' : Bytes} (h : IsBencode v bs) (hn : NoEmptyB v) (h' : Lenient m bs')
    (e : bs ++ r = bs' ++ r') : Readable v ∧ bs = bs' ∧ r = r' := by
  match h with
  | .int hi =>
    cases h' with
    | int hne hd hx hlt =>
      rename_i ds x
      simp only [List.cons_append, List.append_assoc, List.cons.injEq, true_and, List.nil_append] at e
      cases hi with
      | nonneg hj =>
        obtain ⟨rfl, rfl, rfl⟩ := digits_prefix (isDigit_of_isDecimal hj) hd (by decide) hx e
        refine ⟨⟨by omega, ?_⟩, by simp, rfl⟩
        rw [hj.denotes] at hlt
        omega
      | neg hj hk =>
        cases ds with
        | nil => exact absurd rfl hne
        | cons d t =>
          simp only [List.cons_append, List.cons.injEq] at e
          have := hd d (by simp)
          rw [← e.1] at this
          exact absurd this (by decide)
    | str hs hh =>
      obtain ⟨b, t, rfl, hd⟩ := lenientStr_head hs
      simp only [List.cons_append, List.cons.injEq] at e
      rw [← e.1] at hd
      exact absurd hd (by decide)
    | list hl => simp at e
    | dict hl => simp at e
  | .str hs =>
    cases h' with
    | str ht hh =>
      obtain ⟨rfl, rfl, rfl, hlt⟩ := isStr_lenientStr hs ht e
      exact ⟨⟨hn, hlt⟩, rfl, rfl⟩
    | int hj => exact absurd (isStr_append_head hs e) (by decide)
    | list hj => exact absurd (isStr_append_head hs e) (by decide)
    | dict hj => exact absurd (isStr_append_head hs e) (by decide)
  | .list hl =>
    cases h' with
    | int hj => simp at e
    | str hs =>
      obtain ⟨b, t, rfl, hd⟩ := lenientStr_head hs
      simp only [List.cons_append, List.cons.injEq] at e
      rw [← e.1] at hd
      exact absurd hd (by decide)
    | dict hd => simp at e
    | list hm =>
      simp only [List.cons_append, List.append_assoc, List.cons.injEq, true_and, List.nil_append] at e
      obtain ⟨h1, rfl, rfl⟩ := readable_of_lenientElems hl hn hm e
      exact ⟨h1, rfl, rfl⟩
  | .dict hl =>
    cases h' with
    | int hj => simp at e
    | str hs =>
      obtain ⟨b, t, rfl, hd⟩ := lenientStr_head hs
      simp only [List.cons_append, List.cons.injEq] at e
      rw [← e.1] at hd
      exact absurd hd (by decide)
    | list hd => simp at e
    | dict hm =>
      simp only [List.cons_append, List.append_assoc, List.cons.injEq, true_and, List.nil_append] at e
      obtain ⟨h1, rfl, rfl⟩ := readable_of_lenientEntries hl hn hm e
      exact ⟨h1, rfl, rfl⟩

theorem readable_of_lenientElems {l : List BVal} {m : List Metainfo} {bs bs' r r' : Bytes} (h : IsElems l bs) (hn : NoEmptyBElems l)
    (h' : LenientElems m bs') (e : bs ++ 101 :: r = bs' ++ 101 :: r') : ReadableElems l ∧ bs = bs' ∧ r = r' := by
  match h with
  | .nil =>
    cases h' with
    | nil => exact ⟨trivial, rfl, by simpa using e⟩
    | cons hv hl =>
      exfalso
      cases hv with
      | int => simp at e
      | list => simp at e
      | dict => simp at e
      | str hs =>
        obtain ⟨b, t, rfl, hd⟩ := lenientStr_head hs
        simp only [List.nil_append, List.cons_append, List.cons.injEq] at e
        rw [← e.1] at hd
        exact absurd hd (by decide)
  | .cons hv hl =>
    cases h' with
    | nil =>
      obtain ⟨b, t, rfl, hne, -⟩ := isBencode_head hv
      simp at e
      exact absurd e.1 hne
    | cons hw hm =>
      simp only [List.append_assoc] at e
      obtain ⟨h1, rfl, e2⟩ := readable_of_lenient hv hn.1 hw e
      obtain ⟨h2, rfl, rfl⟩ := readable_of_lenientElems hl hn.2 hm e2
      exact ⟨⟨h1, h2⟩, rfl, rfl⟩

theorem readable_of_lenientEntries {l : List (Bytes × BVal)} {acc m : List (Bytes × Metainfo)} {bs bs' r r' : Bytes} (h : IsEntries l bs)
    (hn : NoEmptyBEntries l) (h' : LenientEntries acc m bs') (e : bs ++ 101 :: r = bs' ++ 101 :: r') :
    ReadableEntries l ∧ bs = bs' ∧ r = r' := by
  match h with
  | .nil =>
    cases h' with
    | nil => exact ⟨trivial, rfl, by simpa using e⟩
    | cons hk hu hv hl =>
      exfalso
      obtain ⟨b, t, rfl, hd⟩ := lenientStr_head hk
      simp only [List.nil_append, List.cons_append, List.cons.injEq] at e
      rw [← e.1] at hd
      exact absurd hd (by decide)
    | noValue hk hu hv hl =>
      exfalso
      obtain ⟨b, t, rfl, hd⟩ := lenientStr_head hk
      simp only [List.nil_append, List.cons_append, List.cons.injEq] at e
      rw [← e.1] at hd
      exact absurd hd (by decide)
  | .cons hk hv hl =>
    cases h' with
    | nil =>
      obtain ⟨b, t, rfl, -, hne⟩ := isStr_head hk
      simp at e
      exact absurd e.1 hne
    | cons hk' hu hw hm =>
      simp only [List.append_assoc] at e
      obtain ⟨rfl, rfl, e1, hlt⟩ := isStr_lenientStr hk hk' e
      obtain ⟨h1, rfl, e2⟩ := readable_of_lenient hv hn.1 hw e1
      obtain ⟨h2, rfl, rfl⟩ := readable_of_lenientEntries hl hn.2 hm e2
      exact ⟨⟨hu, hlt, h1, h2⟩, rfl, rfl⟩
    | noValue hk' hu hw hm =>
      exfalso
      simp only [List.append_assoc] at e
      obtain ⟨rfl, rfl, e1, hlt⟩ := isStr_lenientStr hk hk' e
      obtain ⟨b, t, rfl, hs⟩ := isBencode_starts hv hn.1
      rename_i bs2
      cases bs2 with
      | nil =>
        simp only [List.cons_append, List.nil_append, List.cons.injEq] at e1
        rw [e1.1] at hs
        exact absurd hs (by unfold StartsValue; decide)
      | cons c u =>
        simp only [List.cons_append, List.cons.injEq] at e1
        have : c = 48 := by simpa using hw
        rw [e1.1, this] at hs
        exact absurd hs (by unfold StartsValue; decide)
end

end RustBit
