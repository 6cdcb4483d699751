/- The encoder against the bencode grammar. -/
import Verif.Proofs.Grammar

namespace RustBit
open Spec

theorem charCount_ascii (s : Bytes) (h : Ascii s) : charCount s = s.length := by
  unfold charCount
  congr 1
  rw [List.filter_eq_self]
  intro b hb
  have := h b hb
  simp only [isCont, Bool.not_eq_true', Bool.and_eq_false_iff, decide_eq_false_iff_not]
  left
  exact UInt8.not_le.mpr this

theorem isStr_encStr (s : Bytes) (h : Ascii s) : IsStr s (encStr s) :=
  ⟨decimal (charCount s), by rw [charCount_ascii s h]; exact isDecimal_decimal _, rfl⟩

theorem isStr_encBytes (s : Bytes) : IsStr s (encBytes s) :=
  ⟨decimal s.length, isDecimal_decimal _, rfl⟩

theorem isBencode_encUsize (n : Nat) : IsBencode (.int n) (encUsize n) :=
  .int (.nonneg (isDecimal_decimal n))

/-- Entries with their encoded values. -/
inductive EntRel : List (Bytes × BVal) → List (Bytes × Bytes) → Prop
  | nil : EntRel [] []
  | cons {k v b l l'} : Ascii k → IsBencode v b → EntRel l l' → EntRel ((k, v) :: l) ((k, b) :: l')

theorem entRel_insert {k : Bytes} {v : BVal} {b : Bytes} (hk : Ascii k) (hv : IsBencode v b)
    {l l'} (h : EntRel l l') : EntRel (insertByKey (k, v) l) (insertKey (k, b) l') := by
  induction h with
  | nil => exact .cons hk hv .nil
  | cons hk' hv' hl ih =>
    rename_i k' v' b' l l'
    rw [insertByKey, insertKey]
    by_cases hle : k ≤ k'
    · simp only [keyLe, hle, decide_true, if_true]
      exact .cons hk hv (.cons hk' hv' hl)
    · simp only [keyLe, hle, decide_false, if_false]
      exact .cons hk' hv' ih

theorem entRel_sort {l l'} (h : EntRel l l') : EntRel (sortByKey l) (sortKeys l') := by
  induction h with
  | nil => exact .nil
  | cons hk hv hl ih => exact entRel_insert hk hv ih

theorem isEntries_of_entRel {l l'} (h : EntRel l l') :
    IsEntries l ((l'.map (fun kv => encStr kv.1 ++ kv.2)).flatten) := by
  induction h with
  | nil => exact .nil
  | cons hk hv hl ih =>
    simp only [List.map_cons, List.flatten_cons]
    exact .cons (isStr_encStr _ hk) hv ih

/-- Absent values are written as nothing. -/
theorem encode_absent (v : EVal) (h : absent v = true) : v.encode = [] := by
  match v with
  | .opt none => rfl
  | .opt (some v) => rw [EVal.encode]; exact encode_absent v h

theorem not_absent (v : EVal) (h : Encodable v) : absent v = false := by
  match v with
  | .str _ | .usize _ | .bytes _ | .vec _ | .map _ => rfl
  | .opt none => exact h.elim
  | .opt (some v) => exact not_absent v h

mutual
theorem isBencode_encode (x : EVal) (h : Encodable x) : IsBencode (sem x) x.encode := by
  match x with
  | .str s => rw [sem, EVal.encode]; exact .str (isStr_encStr s h)
  | .usize n => rw [sem, EVal.encode]; exact isBencode_encUsize n
  | .bytes b => rw [sem, EVal.encode]; exact .str (isStr_encBytes b)
  | .vec l => rw [sem, EVal.encode]; exact .list (isElems_encode l h)
  | .map m =>
    rw [sem, EVal.encode]
    exact .dict (isEntries_of_entRel (entRel_sort (entRel_encode m h.2)))
  | .opt none => exact h.elim
  | .opt (some v) => rw [sem, EVal.encode]; exact isBencode_encode v h
theorem isElems_encode (l : List EVal) (h : EncodableElems l) :
    IsElems (semElems l) (encodeElems l).flatten := by
  match l with
  | [] => exact .nil
  | v :: t =>
    rw [semElems, encodeElems, List.flatten_cons]
    split
    · rename_i ha
      rw [encode_absent v ha, List.nil_append]
      exact isElems_encode t h.2
    · rename_i ha
      exact .cons (isBencode_encode v (h.1.resolve_left ha)) (isElems_encode t h.2)
theorem entRel_encode (m : List (Bytes × EVal)) (h : EncodableEntries m) :
    EntRel (semEntries m) (encodeEntries m) := by
  match m with
  | [] => exact .nil
  | (k, v) :: t =>
    rw [semEntries, encodeEntries]
    exact .cons h.1 (isBencode_encode v h.2.1) (entRel_encode t h.2.2)
end

/-! ### Sorting -/

theorem insertByKey_perm {α : Type} (e : Bytes × α) (l : List (Bytes × α)) :
    (insertByKey e l).Perm (e :: l) := by
  induction l with
  | nil => exact .refl _
  | cons x t ih =>
    rw [insertByKey]
    split
    · exact .refl _
    · exact (ih.cons x).trans (.swap e x t)

theorem sortByKey_perm {α : Type} (l : List (Bytes × α)) : (sortByKey l).Perm l := by
  induction l with
  | nil => exact .refl _
  | cons e t ih => exact (insertByKey_perm e _).trans (ih.cons e)

theorem insertByKey_sorted {α : Type} (e : Bytes × α) (l : List (Bytes × α))
    (h : l.Pairwise (fun a b => a.1 ≤ b.1)) :
    (insertByKey e l).Pairwise (fun a b => a.1 ≤ b.1) := by
  induction l with
  | nil => simp [insertByKey]
  | cons x t ih =>
    rw [insertByKey]
    have hx := List.pairwise_cons.mp h
    split
    · rename_i hle
      refine List.pairwise_cons.mpr ⟨?_, h⟩
      intro y hy
      rcases List.mem_cons.mp hy with rfl | hy
      · exact hle
      · exact List.le_trans hle (hx.1 y hy)
    · rename_i hle
      refine List.pairwise_cons.mpr ⟨?_, ih hx.2⟩
      intro y hy
      rcases List.mem_cons.mp ((insertByKey_perm e t).mem_iff.mp hy) with rfl | hy
      · exact List.le_of_lt (List.not_le.mp hle)
      · exact hx.1 y hy

theorem sortByKey_sorted {α : Type} (l : List (Bytes × α)) :
    (sortByKey l).Pairwise (fun a b => a.1 ≤ b.1) := by
  induction l with
  | nil => exact .nil
  | cons e t ih => exact insertByKey_sorted e _ ih

/-- Sorting with distinct keys gives strictly ascending keys. -/
theorem sortByKey_strict {α : Type} (l : List (Bytes × α)) (h : (l.map Prod.fst).Nodup) :
    ((sortByKey l).map Prod.fst).Pairwise (· < ·) := by
  have hs := sortByKey_sorted l
  have hn : ((sortByKey l).map Prod.fst).Nodup :=
    ((sortByKey_perm l).map Prod.fst).nodup_iff.mpr h
  rw [List.pairwise_map]
  rw [List.Nodup, List.pairwise_map] at hn
  exact (hs.and hn).imp (fun h => Std.lt_of_le_of_ne h.1 h.2)

/-- Two strictly sorted rearrangements of the same entries are equal. -/
theorem eq_of_perm_sorted {α : Type} {l l' : List (Bytes × α)} (hp : l.Perm l')
    (h : (l.map Prod.fst).Pairwise (· < ·)) (h' : (l'.map Prod.fst).Pairwise (· < ·)) : l = l' := by
  rw [List.pairwise_map] at h h'
  refine hp.eq_of_pairwise ?_ h h'
  intro a b _ _ h1 h2
  exact absurd h1 (List.lt_asymm h2)

theorem sortByKey_perm_eq {α : Type} {l l' : List (Bytes × α)} (hp : l.Perm l')
    (h : (l.map Prod.fst).Nodup) : sortByKey l = sortByKey l' := by
  refine eq_of_perm_sorted (((sortByKey_perm l).trans hp).trans (sortByKey_perm l').symm)
    (sortByKey_strict l h) (sortByKey_strict l' ?_)
  exact (hp.map Prod.fst).nodup_iff.mp h

theorem sortKeys_eq (l : List (Bytes × Bytes)) : sortKeys l = sortByKey l := by
  have hi : ∀ e (l : List (Bytes × Bytes)), insertKey e l = insertByKey e l := by
    intro e l
    induction l with
    | nil => rfl
    | cons x t ih => simp [insertKey, insertByKey, keyLe, ih]
  induction l with
  | nil => rfl
  | cons e t ih => rw [sortKeys, sortByKey, ih, hi]

theorem encodeEntries_keys (m : List (Bytes × EVal)) :
    (encodeEntries m).map Prod.fst = m.map Prod.fst := by
  induction m with
  | nil => rfl
  | cons a t ih => obtain ⟨k, v⟩ := a; simp [encodeEntries, ih]

theorem encodeEntries_eq_map (m : List (Bytes × EVal)) :
    encodeEntries m = m.map (fun e => (e.1, e.2.encode)) := by
  induction m with
  | nil => rfl
  | cons a t ih => obtain ⟨k, v⟩ := a; simp [encodeEntries, ih]

theorem encMap_perm {m m' : List (Bytes × Bytes)} (hp : m.Perm m') (h : (m.map Prod.fst).Nodup) :
    encMap m = encMap m' := by
  rw [encMap, encMap, sortKeys_eq, sortKeys_eq, sortByKey_perm_eq hp h]

mutual
theorem encode_sameMaps {x y : EVal} (h : SameMaps x y) (hx : OneEntryPerKey x) :
    x.encode = y.encode := by
  match h with
  | .refl => rfl
  | .vec hl => rw [EVal.encode, EVal.encode, encodeElems_sameMaps hl hx]
  | .map (m' := m') hm hp =>
    rw [EVal.encode, EVal.encode, encodeEntries_sameMaps hm hx.2]
    refine encMap_perm ?_ ?_
    · rw [encodeEntries_eq_map, encodeEntries_eq_map]; exact hp.map _
    · rw [← encodeEntries_sameMaps hm hx.2, encodeEntries_keys]; exact hx.1
  | .opt hv => rw [EVal.encode, EVal.encode, encode_sameMaps hv hx]
theorem encodeElems_sameMaps {l l' : List EVal} (h : SameMapsElems l l')
    (hx : OneEntryPerKeyElems l) : encodeElems l = encodeElems l' := by
  match h with
  | .nil => rfl
  | .cons hv hl => rw [encodeElems, encodeElems, encode_sameMaps hv hx.1, encodeElems_sameMaps hl hx.2]
theorem encodeEntries_sameMaps {l l' : List (Bytes × EVal)} (h : SameMapsEntries l l')
    (hx : OneEntryPerKeyEntries l) : encodeEntries l = encodeEntries l' := by
  match h with
  | .nil => rfl
  | .cons hv hl =>
    rw [encodeEntries, encodeEntries, encode_sameMaps hv hx.1, encodeEntries_sameMaps hl hx.2]
end

theorem semEntries_keys (m : List (Bytes × EVal)) :
    (semEntries m).map Prod.fst = m.map Prod.fst := by
  induction m with
  | nil => rfl
  | cons a t ih => obtain ⟨k, v⟩ := a; simp [semEntries, ih]

theorem canonicalEntries_iff (d : List (Bytes × BVal)) :
    CanonicalEntries d ↔ ∀ e ∈ d, e.2.Canonical := by
  induction d with
  | nil => simp [CanonicalEntries]
  | cons a t ih => obtain ⟨k, v⟩ := a; simp [CanonicalEntries, ih]

mutual
theorem canonical_sem (x : EVal) (h : Encodable x) : (sem x).Canonical := by
  match x with
  | .str s => rw [sem]; trivial
  | .usize n => rw [sem]; trivial
  | .bytes b => rw [sem]; trivial
  | .vec l => rw [sem]; exact canonical_semElems l h
  | .map m =>
    rw [sem]
    refine ⟨sortByKey_strict _ (by rw [semEntries_keys]; exact h.1), ?_⟩
    rw [canonicalEntries_iff]
    intro e he
    have := (canonicalEntries_iff _).mp (canonical_semEntries m h.2)
    exact this e ((sortByKey_perm _).mem_iff.mp he)
  | .opt none => exact h.elim
  | .opt (some v) => rw [sem]; exact canonical_sem v h
theorem canonical_semElems (l : List EVal) (h : EncodableElems l) : CanonicalElems (semElems l) := by
  match l with
  | [] => trivial
  | v :: t =>
    rw [semElems]
    split
    · exact canonical_semElems t h.2
    · rename_i ha
      exact ⟨canonical_sem v (h.1.resolve_left ha), canonical_semElems t h.2⟩
theorem canonical_semEntries (m : List (Bytes × EVal)) (h : EncodableEntries m) :
    CanonicalEntries (semEntries m) := by
  match m with
  | [] => trivial
  | (k, v) :: t => exact ⟨canonical_sem v h.2.1, canonical_semEntries t h.2.2⟩
end

mutual
theorem distinct_of_canonical (v : BVal) (h : v.Canonical) : DistinctKeys v := by
  match v with
  | .int _ => trivial
  | .str _ => trivial
  | .list l => exact distinctElems_of_canonical l h
  | .dict d =>
    refine ⟨?_, distinctEntries_of_canonical d h.2⟩
    exact h.1.imp (fun {a b} hlt e => by subst e; exact List.lt_irrefl a hlt)
theorem distinctElems_of_canonical (l : List BVal) (h : CanonicalElems l) : DistinctKeysElems l := by
  match l with
  | [] => trivial
  | v :: t => exact ⟨distinct_of_canonical v h.1, distinctElems_of_canonical t h.2⟩
theorem distinctEntries_of_canonical (d : List (Bytes × BVal)) (h : CanonicalEntries d) :
    DistinctKeysEntries d := by
  match d with
  | [] => trivial
  | (_, v) :: t => exact ⟨distinct_of_canonical v h.1, distinctEntries_of_canonical t h.2⟩
end

/-! ### No lists, no hang -/

theorem noList_noHang (f : Nat) :
    (∀ c p, (108 : UInt8) ∉ c → 2 * (c.length - p) + 1 ≤ f → Decoder.decodeF f c p ≠ .hang) ∧
    (∀ c p acc, (108 : UInt8) ∉ c → 2 * (c.length - p) + 2 ≤ f →
      Decoder.dictLoop f c p acc ≠ .hang) := by
  induction f with
  | zero => exact ⟨by intros; omega, by intros; omega⟩
  | succ f ih =>
    obtain ⟨ih1, ih3⟩ := ih
    refine ⟨?_, ?_⟩
    · intro c p hc hf
      rw [Decoder.decodeF]
      cases hb : c[p]? with
      | none => simp
      | some b =>
        have hp : p < c.length := (List.getElem?_eq_some_iff.mp hb).1
        simp only
        split
        · exact Decoder.parseInteger_ne_hang _ _
        · split
          · rename_i h108
            subst h108
            exact absurd (List.mem_of_getElem? hb) hc
          · split
            · exact ih3 _ _ _ hc (by omega)
            · split
              · cases hs : Decoder.parseString c p with
                | hang => exact absurd hs (Decoder.parseString_ne_hang _ _)
                | _ => simp
              · simp
    · intro c p acc hc hf
      rw [Decoder.dictLoop]
      cases hb : c[p]? with
      | none => simp
      | some b =>
        have hp : p < c.length := (List.getElem?_eq_some_iff.mp hb).1
        simp only
        split
        · simp
        · cases hs : Decoder.parseString c p with
          | hang => exact absurd hs (Decoder.parseString_ne_hang _ _)
          | err e => simp
          | panic => simp
          | ok a =>
            obtain ⟨k, p0⟩ := a
            have hbd := Decoder.parseString_bounds hs
            simp only [Res.bind_ok]
            split
            · cases hd : Decoder.decodeF f c p0 with
              | hang => exact absurd hd (ih1 _ _ hc (by omega))
              | err e => simp
              | panic => simp
              | ok a =>
                have hpr := (Decoder.progress f).1 _ _ _ _ hd
                have := hpr.2.1 (by omega)
                simp only [Res.bind_ok]
                exact ih3 _ _ _ hc (by omega)
            · simp

end RustBit
