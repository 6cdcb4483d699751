/-
The texts and numbers in a JSON document that is itself text.
-/
import Verif.Proofs.JsonGrammar
import Verif.Spec.Cache

namespace RustBit
open Spec Json

/-! ### Splitting text at an ASCII character -/

theorem text_nil : Text [] := ⟨[], by simp, rfl⟩

theorem text_scalar {n : Nat} {s : Bytes} (hn : Scalar n) (h : Text s) : Text (utf8 n ++ s) := by
  obtain ⟨cs, hc, rfl⟩ := h
  refine ⟨n :: cs, ?_, rfl⟩
  intro m hm
  rcases List.mem_cons.mp hm with rfl | hm
  · exact hn
  · exact hc m hm

theorem text_ascii {b : UInt8} {s : Bytes} (hb : b.toNat < 0x80) (h : Text s) : Text (b :: s) := by
  have := text_scalar (n := b.toNat) (Or.inl (by omega)) h
  rwa [utf8, if_pos hb, UInt8.ofNat_toNat] at this

theorem text_append {s t : Bytes} (hs : Text s) (ht : Text t) : Text (s ++ t) := by
  obtain ⟨cs, h1, rfl⟩ := hs
  obtain ⟨ds, h2, rfl⟩ := ht
  refine ⟨cs ++ ds, ?_, by simp⟩
  intro n hn
  rcases List.mem_append.mp hn with h | h
  · exact h1 n h
  · exact h2 n h

/-- A character is ASCII, or all of its bytes are not. -/
theorem utf8_high (n : Nat) (hn : Scalar n) : (n < 0x80 ∧ utf8 n = [UInt8.ofNat n]) ∨ (utf8 n ≠ [] ∧ ∀ b ∈ utf8 n, 0x80 ≤ b.toNat) := by
  unfold Scalar at hn
  unfold utf8
  split
  · exact .inl ⟨by assumption, rfl⟩
  · right
    split
    · refine ⟨by simp, ?_⟩
      intro b hb
      simp only [List.mem_cons, List.not_mem_nil, or_false] at hb
      rcases hb with rfl | rfl <;> rw [toNat_ofNat_lt (by omega)] <;> omega
    · split
      · refine ⟨by simp, ?_⟩
        intro b hb
        simp only [List.mem_cons, List.not_mem_nil, or_false] at hb
        rcases hb with rfl | rfl | rfl <;> rw [toNat_ofNat_lt (by omega)] <;> omega
      · refine ⟨by simp, ?_⟩
        intro b hb
        simp only [List.mem_cons, List.not_mem_nil, or_false] at hb
        rcases hb with rfl | rfl | rfl | rfl <;> rw [toNat_ofNat_lt (by omega)] <;> omega

theorem text_split {a c : Bytes} {b : UInt8} (hb : b.toNat < 0x80) (h : Text (a ++ b :: c)) : Text a ∧ Text c := by
  obtain ⟨cs, hs, e⟩ := h
  induction cs generalizing a with
  | nil => simp at e
  | cons n cs ih =>
    have hn := hs n (by simp)
    have hs' : ∀ m ∈ cs, Scalar m := fun m hm => hs m (List.mem_cons_of_mem _ hm)
    have htail : Text (cs.flatMap utf8) := ⟨cs, hs', rfl⟩
    rw [List.flatMap_cons] at e
    rcases List.append_eq_append_iff.mp e with ⟨d, h1, h2⟩ | ⟨d, h1, h2⟩
    · cases d with
      | nil =>
        rw [List.append_nil] at h1
        cases hcs : cs with
        | nil => rw [hcs] at h2; simp at h2
        | cons m ms =>
          obtain ⟨ha, hc⟩ := ih (a := []) hs' (by simpa using h2)
          refine ⟨?_, hc⟩
          rw [← h1]
          have := text_scalar hn text_nil
          rwa [List.append_nil] at this
      | cons x d =>
        rw [List.cons_append, List.cons.injEq] at h2
        obtain ⟨rfl, rfl⟩ := h2
        rcases utf8_high n hn with ⟨_, e1⟩ | ⟨_, e1⟩
        · rw [e1] at h1
          cases a with
          | nil =>
            simp only [List.nil_append, List.cons.injEq] at h1
            rw [← h1.2, List.nil_append]
            exact ⟨text_nil, htail⟩
          | cons y a => simp at h1
        · have := e1 b (by rw [h1]; simp)
          omega
    · obtain ⟨ha, hc⟩ := ih hs' h2.symm
      exact ⟨by rw [h1]; exact text_scalar hn ha, hc⟩

/-! ### Strings -/

theorem chars_high {hs : Bytes} (h : ∀ b ∈ hs, 0x80 ≤ b.toNat) {us : List StrUnit} {t : Bytes} (hc : IsChars us (hs ++ t)) :
    ∃ us', us = hs.map StrUnit.byte ++ us' ∧ IsChars us' t := by
  induction hs generalizing us with
  | nil => exact ⟨us, rfl, hc⟩
  | cons b hs ih =>
    have hb := h b (by simp)
    have hb' : b ≠ 0x5C := by rintro rfl; revert hb; decide
    rw [List.cons_append] at hc
    generalize ex : b :: (hs ++ t) = x at hc
    cases hc with
    | nil => cases ex
    | raw _ _ _ h4 =>
      simp only [List.cons.injEq] at ex
      obtain ⟨rfl, rfl⟩ := ex
      obtain ⟨us', rfl, h5⟩ := ih (fun x hx => h x (List.mem_cons_of_mem _ hx)) h4
      exact ⟨us', rfl, h5⟩
    | short => simp only [List.cons.injEq] at ex; exact absurd ex.1 hb'
    | hex => simp only [List.cons.injEq] at ex; exact absurd ex.1 hb'

theorem means_bytes {hs : Bytes} {us : List StrUnit} {s : Bytes} (h : Means (hs.map StrUnit.byte ++ us) s) : ∃ s', s = hs ++ s' ∧ Means us s' := by
  induction hs generalizing s with
  | nil => exact ⟨s, rfl, h⟩
  | cons b hs ih =>
    rw [List.map_cons, List.cons_append] at h
    cases h with
    | byte h =>
      obtain ⟨s', rfl, h'⟩ := ih h
      exact ⟨s', rfl, h'⟩

theorem isHex_ascii {n : Nat} {c : UInt8} (h : IsHex n c) : c.toNat < 0x80 := by unfold IsHex at h; omega

theorem short_ascii {e c : UInt8} (h : (e, c) ∈ shortEscapes) : e.toNat < 0x80 ∧ c.toNat < 0x80 := by
  simp only [shortEscapes, List.mem_cons, List.not_mem_nil, or_false, Prod.mk.injEq] at h
  rcases h with ⟨rfl, rfl⟩ | ⟨rfl, rfl⟩ | ⟨rfl, rfl⟩ | ⟨rfl, rfl⟩ | ⟨rfl, rfl⟩ | ⟨rfl, rfl⟩ | ⟨rfl, rfl⟩ | ⟨rfl, rfl⟩ <;> decide

theorem hex_rest {a b c d : UInt8} {k l m n : Nat} {bs : Bytes} (_ : IsHex k a) (_ : IsHex l b) (_ : IsHex m c) (h4 : IsHex n d)
    (h : Text (0x5C :: 0x75 :: a :: b :: c :: d :: bs)) : Text bs :=
  (text_split (a := [0x5C, 0x75, a, b, c]) (isHex_ascii h4) h).2

theorem means_text (k : Nat) : ∀ {us : List StrUnit} {bs s : Bytes}, bs.length ≤ k → IsChars us bs → Text bs → Means us s → Text s := by
  induction k with
  | zero =>
    intro us bs s hk hc _ hm
    cases hc with
    | nil => cases hm; exact text_nil
    | _ => simp at hk
  | succ k ih =>
    intro us bs s hk hc ht hm
    obtain ⟨cs, hs, e⟩ := ht
    cases cs with
    | nil =>
      simp only [List.flatMap_nil] at e
      subst e
      cases hc
      cases hm
      exact text_nil
    | cons n cs =>
      have hn := hs n (by simp)
      have htail : Text (cs.flatMap utf8) := ⟨cs, fun m hm => hs m (List.mem_cons_of_mem _ hm), rfl⟩
      have ht : Text bs := ⟨n :: cs, hs, e⟩
      rw [List.flatMap_cons] at e
      rcases utf8_high n hn with ⟨hlt, e1⟩ | ⟨hne, hhigh⟩
      · rw [e1, List.singleton_append] at e
        cases hc with
        | nil => cases e
        | @raw b us bs h1 h2 h3 h4 =>
          simp only [List.cons.injEq] at e
          obtain ⟨rfl, rfl⟩ := e
          cases hm with
          | byte hm =>
            refine text_ascii (by rw [toNat_ofNat_lt (by omega)]; exact hlt) (ih ?_ h4 htail hm)
            simp only [List.length_cons] at hk
            omega
        | @short e' c us bs h1 h2 =>
          cases hm with
          | byte hm =>
            refine text_ascii (short_ascii h1).2 (ih ?_ h2 (text_split (a := [0x5C]) (short_ascii h1).1 ht).2 hm)
            simp only [List.length_cons] at hk
            omega
        | @hex k' l' m' n' _ _ _ _ us bs h1 h2 h3 h4 h5 =>
          generalize 4096 * k' + 256 * l' + 16 * m' + n' = q at hm
          have hr := hex_rest h1 h2 h3 h4 ht
          simp only [List.length_cons] at hk
          cases hm with
          | scalar hsc hm => exact text_scalar hsc (ih (by omega) h5 hr hm)
          | pair hh hl hm =>
            refine text_scalar (Or.inr ⟨by omega, by omega⟩) ?_
            generalize eu : StrUnit.code (0xDC00 + _) :: _ = u at h5
            cases h5 with
            | nil => cases eu
            | raw => simp at eu
            | short => simp at eu
            | hex g1 g2 g3 g4 g5 =>
              simp only [List.cons.injEq] at eu
              obtain ⟨-, rfl⟩ := eu
              simp only [List.length_cons] at hk
              exact ih (by omega) g5 (hex_rest g1 g2 g3 g4 hr) hm
      · rw [e] at hc
        obtain ⟨us', rfl, hc'⟩ := chars_high hhigh hc
        obtain ⟨s', rfl, hm'⟩ := means_bytes hm
        refine text_scalar hn (ih ?_ hc' htail hm')
        have : 0 < (utf8 n).length := List.length_pos_iff.mpr hne
        rw [e, List.length_append] at hk
        omega

theorem isString_text {s ks a c : Bytes} (h : IsString (some s) ks) (ht : Text (a ++ ks ++ c)) : Text s := by
  cases h with
  | @text us _ bs hc hm =>
    have e : a ++ (0x22 :: bs ++ [0x22]) ++ c = a ++ 0x22 :: (bs ++ 0x22 :: c) := by simp
    rw [e] at ht
    have h1 := (text_split (by decide) ht).2
    exact means_text _ (Nat.le_refl _) hc (text_split (by decide) h1).1 hm

/-! ### Documents -/

mutual
/-- Numbers have 64 bits and strings are text; of objects only the values count. -/
def Json.Sane : Json → Prop
  | .num n => ∀ k, n = some k → k < 2 ^ 64
  | .str s => ∀ t, s = some t → Text t
  | .arr l => SaneList l
  | .obj m => SaneMembers m
  | _ => True
def SaneList : List Json → Prop
  | [] => True
  | v :: t => v.Sane ∧ SaneList t
def SaneMembers : List (Option Bytes × Json) → Prop
  | [] => True
  | (_, v) :: t => v.Sane ∧ SaneMembers t
end

mutual
theorem isJson_sane : ∀ {v : Json} {bs : Bytes}, IsJson v bs → ∀ a c, Text (a ++ bs ++ c) → v.Sane
  | _, _, .null, _, _, _ => trivial
  | _, _, .true, _, _, _ => trivial
  | _, _, .false, _, _, _ => trivial
  | _, _, .num h, _, _, _ => by
      intro k e
      subst e
      cases h with
      | int _ hn => exact hn
  | _, _, .str h, a, c, ht => by
      intro t e
      subst e
      exact isString_text h ht
  | _, _, .empty _, _, _, _ => trivial
  | _, _, .arr (bs := bs) h, a, c, ht => jElems_sane h (a ++ [0x5B]) ([0x5D] ++ c) (by
      have e : a ++ [0x5B] ++ bs ++ ([0x5D] ++ c) = a ++ (0x5B :: bs ++ [0x5D]) ++ c := by simp
      rw [e]; exact ht)
  | _, _, .none _, _, _, _ => trivial
  | _, _, .obj (bs := bs) h, a, c, ht => jMembers_sane h (a ++ [0x7B]) ([0x7D] ++ c) (by
      have e : a ++ [0x7B] ++ bs ++ ([0x7D] ++ c) = a ++ (0x7B :: bs ++ [0x7D]) ++ c := by simp
      rw [e]; exact ht)
theorem jElems_sane : ∀ {l : List Json} {bs : Bytes}, JElems l bs → ∀ a c, Text (a ++ bs ++ c) → SaneList l
  | _, _, .one (w := w) (bs := bs) (w' := w') _ hv _, a, c, ht => ⟨isJson_sane hv (a ++ w) (w' ++ c) (by
      have e : a ++ w ++ bs ++ (w' ++ c) = a ++ (w ++ bs ++ w') ++ c := by simp
      rw [e]; exact ht), trivial⟩
  | _, _, .cons (w := w) (bs := bs) (w' := w') (bs' := bs') _ hv _ hl, a, c, ht => ⟨isJson_sane hv (a ++ w) (w' ++ 0x2C :: bs' ++ c) (by
      have e : a ++ w ++ bs ++ (w' ++ 0x2C :: bs' ++ c) = a ++ (w ++ bs ++ w' ++ 0x2C :: bs') ++ c := by simp
      rw [e]; exact ht), jElems_sane hl (a ++ w ++ bs ++ w' ++ [0x2C]) c (by
      have e : a ++ w ++ bs ++ w' ++ [0x2C] ++ bs' ++ c = a ++ (w ++ bs ++ w' ++ 0x2C :: bs') ++ c := by simp
      rw [e]; exact ht)⟩
theorem jMembers_sane : ∀ {m : List (Option Bytes × Json)} {bs : Bytes}, JMembers m bs → ∀ a c, Text (a ++ bs ++ c) → SaneMembers m
  | _, _, .one (w := w) (ks := ks) (w1 := w1) (w2 := w2) (bs := bs) (w' := w') _ _ _ _ hv _, a, c, ht =>
      ⟨isJson_sane hv (a ++ w ++ ks ++ w1 ++ 0x3A :: w2) (w' ++ c) (by
      have e : a ++ w ++ ks ++ w1 ++ 0x3A :: w2 ++ bs ++ (w' ++ c) = a ++ (w ++ ks ++ w1 ++ 0x3A :: (w2 ++ bs ++ w')) ++ c := by simp
      rw [e]; exact ht), trivial⟩
  | _, _, .cons (w := w) (ks := ks) (w1 := w1) (w2 := w2) (bs := bs) (w' := w') (bs' := bs') _ _ _ _ hv _ hm, a, c, ht =>
      ⟨isJson_sane hv (a ++ w ++ ks ++ w1 ++ 0x3A :: w2) (w' ++ 0x2C :: bs' ++ c) (by
      have e : a ++ w ++ ks ++ w1 ++ 0x3A :: w2 ++ bs ++ (w' ++ 0x2C :: bs' ++ c) =
        a ++ (w ++ ks ++ w1 ++ 0x3A :: (w2 ++ bs ++ w' ++ 0x2C :: bs')) ++ c := by simp
      rw [e]; exact ht), jMembers_sane hm (a ++ w ++ ks ++ w1 ++ 0x3A :: (w2 ++ bs ++ w' ++ [0x2C])) c (by
      have e : a ++ w ++ ks ++ w1 ++ 0x3A :: (w2 ++ bs ++ w' ++ [0x2C]) ++ bs' ++ c =
        a ++ (w ++ ks ++ w1 ++ 0x3A :: (w2 ++ bs ++ w' ++ 0x2C :: bs')) ++ c := by simp
      rw [e]; exact ht)⟩
end

theorem sane_has {m : List (Option Bytes × Json)} {k : Bytes} {j : Json} (h : SaneMembers m) (hh : Has m k j) : j.Sane := by
  obtain ⟨pre, post, rfl, -, -⟩ := hh
  induction pre with
  | nil => exact h.1
  | cons e t ih => exact ih h.2

theorem sane_each {α : Type} {R : Json → α → Prop} {js : List Json} {l : List α} (hs : SaneList js) (h : Each R js l) :
    ∀ a ∈ l, ∃ j, j.Sane ∧ R j a := by
  induction h with
  | nil => simp
  | cons h1 _ ih =>
    intro a ha
    rcases List.mem_cons.mp ha with rfl | ha
    · exact ⟨_, hs.1, h1⟩
    · exact ih hs.2 a ha

theorem sane_vec {α : Type} {R : Json → α → Prop} {j : Json} {l : List α} (hs : j.Sane) (h : IsVec R j l) : ∀ a ∈ l, ∃ j, j.Sane ∧ R j a := by
  obtain ⟨js, rfl, he⟩ := h
  exact sane_each hs he

theorem sane_string {j : Json} {s : Bytes} (hs : j.Sane) (h : IsRustString j s) : validUtf8 s = true := by
  cases h
  obtain ⟨cs, hc⟩ := hs s rfl
  exact valid_of_text hc

theorem sane_usize {j : Json} {n : Nat} (hs : j.Sane) (h : IsUsize j n) : n < 2 ^ 64 := by
  cases h
  exact hs n rfl

theorem sane_file {j : Json} {f : File} (hs : j.Sane) (h : IsFile j f) : f.length < 2 ^ 64 ∧ ∀ p ∈ f.path, validUtf8 p = true := by
  obtain ⟨jp, jl, hp, hl, h⟩ := h
  have key : jp.Sane ∧ jl.Sane := by
    rcases h with ⟨m, rfl, -, h1, h2⟩ | rfl
    · exact ⟨sane_has hs h1, sane_has hs h2⟩
    · exact ⟨hs.1, hs.2.1⟩
  refine ⟨sane_usize key.2 hl, fun p hm => ?_⟩
  obtain ⟨j, h1, h2⟩ := sane_vec key.1 hp p hm
  exact sane_string h1 h2

theorem sane_option {α : Type} {R : Json → α → Prop} {j : Json} {o : Option α} (hs : j.Sane) (h : IsOption R j o) :
    ∀ a, o = some a → ∃ j, j.Sane ∧ R j a := by
  rintro a rfl
  exact ⟨j, hs, h⟩

theorem sane_optionField {α : Type} {R : Json → α → Prop} {m : List (Option Bytes × Json)} {k : Bytes} {o : Option α} (hs : SaneMembers m)
    (h : OptionField R m k o) : ∀ a, o = some a → ∃ j, j.Sane ∧ R j a := by
  rintro a rfl
  rcases h with ⟨_, h⟩ | ⟨j, hj, hr⟩
  · cases h
  · exact ⟨j, sane_has hs hj, hr⟩

theorem sane_info {j : Json} {i : Info} (hs : j.Sane) (h : IsInfo j i) : Typed i := by
  have key : (∀ a, i.files = some a → ∃ j, j.Sane ∧ IsVec IsFile j a) ∧ (∀ a, i.length = some a → ∃ j, j.Sane ∧ IsUsize j a) ∧
      (∃ j, j.Sane ∧ IsRustString j i.name) ∧ (∃ j, j.Sane ∧ IsUsize j i.pieceLength) := by
    rcases h with ⟨m, rfl, -, h1, h2, ⟨j3, h3, h3'⟩, ⟨j4, h4, h4'⟩, -⟩ | ⟨j1, j2, j3, j4, j5, rfl, h1, h2, h3, h4, -⟩
    · exact ⟨sane_optionField hs h1, sane_optionField hs h2, ⟨j3, sane_has hs h3, h3'⟩, ⟨j4, sane_has hs h4, h4'⟩⟩
    · exact ⟨sane_option hs.1 h1, sane_option hs.2.1 h2, ⟨j3, hs.2.2.1, h3⟩, ⟨j4, hs.2.2.2.1, h4⟩⟩
  obtain ⟨k1, k2, ⟨_, k3, k3'⟩, ⟨_, k4, k4'⟩⟩ := key
  refine ⟨sane_string k3 k3', sane_usize k4 k4', ?_, ?_⟩
  · intro n hn
    obtain ⟨_, h1, h2⟩ := k2 n hn
    exact sane_usize h1 h2
  · intro fs hfs f hf
    obtain ⟨_, h1, h2⟩ := k1 fs hfs
    obtain ⟨_, h3, h4⟩ := sane_vec h1 h2 f hf
    exact sane_file h3 h4

theorem stored_typed {i : Info} {s : Bytes} (ht : Text s) (h : Stored i s) : Typed i := by
  obtain ⟨v, ⟨w, bs, w', -, hj, -, rfl⟩, hi⟩ := h
  exact sane_info (isJson_sane hj w w' ht) hi

end RustBit
