/- When the encoder writes the value it is given: exactly for ASCII text. -/
import Verif.Proofs.Info
import Verif.Proofs.Text

namespace RustBit
open Spec

theorem charCount_le (s : Bytes) : charCount s ≤ s.length := List.length_filter_le _ _

/-- Text whose characters are as many as its bytes is ASCII. -/
theorem ascii_of_charCount (s : Bytes) (hv : validUtf8 s = true) (h : charCount s = s.length) : Ascii s := by
  obtain ⟨cs, ht⟩ := text_of_valid s hv
  rw [charCount_text ht] at h
  obtain ⟨h1, rfl⟩ := ht
  clear hv
  have hlen : ∀ n, 1 ≤ (utf8 n).length := fun n => by unfold utf8; (repeat' split) <;> simp
  have hge : ∀ cs : List Nat, cs.length ≤ (cs.flatMap utf8).length := fun cs => by
    induction cs with
    | nil => simp
    | cons c cs ih => rw [List.flatMap_cons, List.length_append, List.length_cons]; have := hlen c; omega
  induction cs with
  | nil => intro b hb; cases hb
  | cons c cs ih =>
    rw [List.flatMap_cons, List.length_append, List.length_cons] at h
    have h2 := hlen c
    have h3 := hge cs
    intro b hb
    rw [List.flatMap_cons] at hb
    rcases List.mem_append.mp hb with hb | hb
    · have h4 : (utf8 c).length = 1 := by omega
      unfold utf8 at h4 hb
      split at h4
      · rename_i hc
        rw [if_pos hc] at hb
        rw [List.mem_singleton.mp hb]
        rw [lt80_iff, toNat_ofNat_lt (by omega)]
        exact hc
      · exfalso; revert h4; split <;> (try split) <;> simp
    · exact ih (fun x hx => h1 x (List.mem_cons_of_mem _ hx)) (by omega) b hb

theorem decimal_inj {a b : Nat} (h : decimal a = decimal b) : a = b := by
  have := (isDecimal_decimal a).denotes
  rw [h, (isDecimal_decimal b).denotes] at this
  exact this.symm

theorem decimal_length_mono {a b : Nat} (h : a ≤ b) : (decimal a).length ≤ (decimal b).length := by
  have : ∀ f g a b, a ≤ b → b < g → (digitsRev f a).length ≤ (digitsRev g b).length := by
    intro f
    induction f with
    | zero => intro g a b _ _; simp [digitsRev]
    | succ f ih =>
      intro g a b hab hg
      cases g with
      | zero => omega
      | succ g =>
        simp only [digitsRev, List.length_cons]
        by_cases ha : a / 10 = 0
        · rw [if_pos ha]; simp
        · rw [if_neg ha, if_neg (by omega)]
          have := ih g (a / 10) (b / 10) (by omega) (by omega)
          omega
  simpa [decimal] using this (a + 1) (b + 1) a b h (by omega)

/-- Two byte strings cut in two at positions of which the second is not later: the parts agree if the whole do and neither part of the
first is longer. -/
theorem parts_eq {a b c d : Bytes} (h : a ++ b = c ++ d) (h1 : a.length ≤ c.length) (h2 : b.length ≤ d.length) : a = c ∧ b = d := by
  have := congrArg List.length h
  rw [List.length_append, List.length_append] at this
  exact List.append_inj h (by omega)

/-- The encoding is no longer than any document for the value, and if it is one then the value is within what the encoder handles. -/
def Tight (x : EVal) : Prop := ∀ bs, IsBencode (sem x) bs → x.encode.length ≤ bs.length ∧ (x.encode = bs → Encodable x)

theorem str_tight {s bs : Bytes} (hv : validUtf8 s = true) (h : IsStr s bs) :
    (encStr s).length ≤ bs.length ∧ (encStr s = bs → Ascii s) := by
  obtain ⟨ds, hd, rfl⟩ := h
  rw [isDecimal_unique hd (isDecimal_decimal _)]
  have := decimal_length_mono (charCount_le s)
  refine ⟨by simp only [encStr, List.length_append, List.length_cons]; omega, fun e => ?_⟩
  refine ascii_of_charCount s hv (decimal_inj ?_)
  exact (parts_eq e (by omega) (by simp)).1

theorem bencode_ne_nil {v : BVal} {bs : Bytes} (h : IsBencode v bs) : bs ≠ [] := by
  obtain ⟨b, t, e, -⟩ := isBencode_head h
  rw [e]; simp

theorem entries_tight (es : List (Bytes × EVal)) (ht : ∀ e ∈ es, validUtf8 e.1 = true ∧ Tight e.2) (bs : Bytes)
    (h : IsEntries (semEntries es) bs) :
    ((encodeEntries es).map (fun kv => encStr kv.1 ++ kv.2)).flatten.length ≤ bs.length ∧
      (((encodeEntries es).map (fun kv => encStr kv.1 ++ kv.2)).flatten = bs → ∀ e ∈ es, Ascii e.1 ∧ Encodable e.2) := by
  induction es generalizing bs with
  | nil => exact ⟨Nat.zero_le _, fun _ e he => by cases he⟩
  | cons a t ih =>
    obtain ⟨k, v⟩ := a
    rw [semEntries] at h
    cases h with
    | cons hk hv hl =>
      rename_i ks b b'
      obtain ⟨k1, k2⟩ := str_tight (ht (k, v) (List.mem_cons_self ..)).1 hk
      obtain ⟨v1, v2⟩ := (ht (k, v) (List.mem_cons_self ..)).2 b hv
      obtain ⟨t1, t2⟩ := ih (fun e he => ht e (List.mem_cons_of_mem _ he)) b' hl
      simp only at k1 k2 v1 v2
      simp only [encodeEntries, List.map_cons, List.flatten_cons]
      refine ⟨by simp only [List.length_append]; omega, fun e => ?_⟩
      obtain ⟨e1, e2⟩ := parts_eq e (by simp only [List.length_append]; omega) t1
      obtain ⟨e3, e4⟩ := parts_eq e1 k1 v1
      intro x hx
      rcases List.mem_cons.mp hx with rfl | hx
      · exact ⟨k2 e3, v2 e4⟩
      · exact t2 e2 x hx

theorem insertByKey_map {α β : Type} (f : Bytes × α → β) (e : Bytes × α) (l : List (Bytes × α)) :
    insertByKey (e.1, f e) (l.map fun e => (e.1, f e)) = (insertByKey e l).map fun e => (e.1, f e) := by
  induction l with
  | nil => rfl
  | cons x t ih =>
    simp only [List.map_cons, insertByKey]
    split <;> simp [ih]

theorem sortByKey_map {α β : Type} (f : Bytes × α → β) (l : List (Bytes × α)) :
    sortByKey (l.map fun e => (e.1, f e)) = (sortByKey l).map fun e => (e.1, f e) := by
  induction l with
  | nil => rfl
  | cons e t ih => simp only [List.map_cons, sortByKey, ih, insertByKey_map]

theorem semEntries_eq_map (m : List (Bytes × EVal)) : semEntries m = m.map (fun e => (e.1, sem e.2)) := by
  induction m with
  | nil => rfl
  | cons a t ih => obtain ⟨k, v⟩ := a; simp [semEntries, ih]

theorem encodableEntries_iff (m : List (Bytes × EVal)) : EncodableEntries m ↔ ∀ e ∈ m, Ascii e.1 ∧ Encodable e.2 := by
  induction m with
  | nil => simp [EncodableEntries]
  | cons a t ih => obtain ⟨k, v⟩ := a; simp [EncodableEntries, ih, and_assoc]

mutual
theorem tight (x : EVal) (ht : TextOk x) (ho : OneEntryPerKey x) : Tight x := by
  intro bs h
  match x with
  | .str s =>
    rw [sem] at h
    cases h with
    | str hs =>
      have := str_tight ht hs
      rw [EVal.encode]
      exact this
  | .usize n =>
    refine ⟨?_, fun _ => trivial⟩
    rw [sem] at h
    have := isBencode_unique h (isBencode_encUsize n)
    rw [EVal.encode, this]; exact Nat.le_refl _
  | .bytes b =>
    refine ⟨?_, fun _ => trivial⟩
    rw [sem] at h
    have := isBencode_unique h (.str (isStr_encBytes b))
    rw [EVal.encode, this]; exact Nat.le_refl _
  | .vec l =>
    rw [sem] at h
    cases h with
    | list hl =>
      obtain ⟨h1, h2⟩ := tightElems l ht ho _ hl
      rw [EVal.encode, encVec]
      refine ⟨by simpa using h1, fun e => ?_⟩
      have e1 := List.append_cancel_right e
      injection e1 with _ e1
      exact h2 e1
  | .map m =>
    rw [sem] at h
    cases h with
    | dict hd =>
      rw [semEntries_eq_map, sortByKey_map (fun e : Bytes × EVal => sem e.2), ← semEntries_eq_map] at hd
      have key := entries_tight (sortByKey m)
        (fun e he => tightEntries m ht ho.2 e ((sortByKey_perm m).mem_iff.mp he)) _ hd
      rw [EVal.encode, encMap, sortKeys_eq, encodeEntries_eq_map, sortByKey_map (fun e : Bytes × EVal => e.2.encode), ← encodeEntries_eq_map]
      refine ⟨by simpa using key.1, fun e => ⟨ho.1, ?_⟩⟩
      have e1 := List.append_cancel_right e
      injection e1 with _ e1
      rw [encodableEntries_iff]
      intro x hx
      exact key.2 e1 x ((sortByKey_perm m).mem_iff.mpr hx)
  | .opt none => exact ⟨Nat.zero_le _, fun e => absurd e.symm (bencode_ne_nil h)⟩
  | .opt (some v) =>
    rw [sem] at h
    rw [EVal.encode]
    exact tight v ht ho bs h
theorem tightElems (l : List EVal) (ht : TextOkElems l) (ho : OneEntryPerKeyElems l) (bs : Bytes) (h : IsElems (semElems l) bs) :
    (encodeElems l).flatten.length ≤ bs.length ∧ ((encodeElems l).flatten = bs → EncodableElems l) := by
  match l with
  | [] => exact ⟨Nat.zero_le _, fun _ => trivial⟩
  | v :: t =>
    rw [encodeElems, List.flatten_cons]
    rw [semElems] at h
    by_cases ha : absent v = true
    · rw [if_pos ha] at h
      rw [encode_absent v ha, List.nil_append]
      obtain ⟨h1, h2⟩ := tightElems t ht.2 ho.2 bs h
      exact ⟨h1, fun e => ⟨.inl ha, h2 e⟩⟩
    · rw [if_neg ha] at h
      cases h with
      | cons hv hl =>
        obtain ⟨h1, h2⟩ := tightElems t ht.2 ho.2 _ hl
        obtain ⟨v1, v2⟩ := tight v ht.1 ho.1 _ hv
        refine ⟨by simp only [List.length_append]; omega, fun e => ?_⟩
        obtain ⟨e1, e2⟩ := parts_eq e v1 h1
        exact ⟨.inr (v2 e1), h2 e2⟩
theorem tightEntries (m : List (Bytes × EVal)) (ht : TextOkEntries m) (ho : OneEntryPerKeyEntries m) :
    ∀ e ∈ m, validUtf8 e.1 = true ∧ Tight e.2 := by
  match m with
  | [] => intro e he; cases he
  | (k, v) :: t =>
    intro e he
    rcases List.mem_cons.mp he with rfl | he
    · exact ⟨ht.1, tight v ht.2.1 ho.1⟩
    · exact tightEntries t ht.2.2 ho.2 e he
end

end RustBit
