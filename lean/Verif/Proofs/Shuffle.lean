/-
The shuffle reaches every order in just one way; orders are symmetric in the peers.
-/
import Verif.Model.Shuffle
import Verif.Spec.Shuffle

namespace RustBit
open Spec

/-! ### Swapping -/

theorem swapAt_eq {α : Type} {l : List α} {i j : Nat} (hi : i < l.length) (hj : j < l.length) : swapAt l i j = (l.set i l[j]).set j l[i] := by
  unfold swapAt
  rw [List.getElem?_eq_getElem hi, List.getElem?_eq_getElem hj]

theorem swapAt_length {α : Type} (l : List α) (i j : Nat) : (swapAt l i j).length = l.length := by
  unfold swapAt
  split <;> simp

theorem swapAt_perm {α : Type} (l : List α) (i j : Nat) : (swapAt l i j).Perm l := by
  unfold swapAt
  split
  · rename_i a b ha hb
    obtain ⟨hi, rfl⟩ := List.getElem?_eq_some_iff.mp ha
    obtain ⟨hj, rfl⟩ := List.getElem?_eq_some_iff.mp hb
    exact List.set_set_perm hi hj
  · exact .refl _

theorem swapAt_map {α β : Type} (f : α → β) (l : List α) (i j : Nat) : swapAt (l.map f) i j = (swapAt l i j).map f := by
  unfold swapAt
  rw [List.getElem?_map, List.getElem?_map]
  cases l[i]? <;> cases l[j]? <;> simp

theorem shuffleLoop_map {α β : Type} (f : α → β) : ∀ (k : Nat) (l : List α) (cs : List Nat), shuffleLoop k (l.map f) cs = (shuffleLoop k l cs).map f := by
  intro k
  induction k using Nat.strongRecOn with
  | ind k ih =>
    intro l cs
    match k, cs with
    | 0, _ => simp [shuffleLoop]
    | 1, _ => simp [shuffleLoop]
    | k + 2, [] => simp [shuffleLoop]
    | k + 2, c :: cs => rw [shuffleLoop, shuffleLoop, swapAt_map, ih (k + 1) (by omega)]

/-- The part the shuffle is done with after the swap at `k`. -/
theorem swapAt_drop {α : Type} {l : List α} {k c : Nat} (hk : k < l.length) (hc : c ≤ k) :
    (swapAt l k c).drop k = l[c] :: l.drop (k + 1) := by
  rw [swapAt_eq hk (by omega)]
  have hlen : k < ((l.set k l[c]).set c l[k]).length := by simpa using hk
  rw [List.drop_eq_getElem_cons hlen]
  congr 1
  · rw [List.getElem_set]
    split
    · rename_i h; subst h; rfl
    · simp
  · apply List.ext_getElem?
    intro i
    rw [List.getElem?_drop, List.getElem?_drop, List.getElem?_set_ne (by omega), List.getElem?_set_ne (by omega)]

theorem nodup_flatMap_of {α β : Type} {l : List α} {f : α → List β} (hl : l.Nodup) (h1 : ∀ a ∈ l, (f a).Nodup)
    (h2 : ∀ a ∈ l, ∀ b ∈ l, ∀ x, x ∈ f a → x ∈ f b → a = b) : (l.flatMap f).Nodup := by
  induction l with
  | nil => simp
  | cons a l ih =>
    rw [List.nodup_cons] at hl
    rw [List.flatMap_cons, List.nodup_append]
    refine ⟨h1 a (by simp), ih hl.2 (fun b hb => h1 b (List.mem_cons_of_mem _ hb))
      (fun b hb c hc => h2 b (List.mem_cons_of_mem _ hb) c (List.mem_cons_of_mem _ hc)), ?_⟩
    intro x hx y hy e
    subst e
    obtain ⟨b, hb, hxb⟩ := List.mem_flatMap.mp hy
    have := h2 a (by simp) b (List.mem_cons_of_mem _ hb) x hx hxb
    subst this
    exact hl.1 hb

/-- The loop reaches just the orders that agree from `k` on, each in one way. -/
theorem shuffleLoop_all {α : Type} : ∀ (k : Nat) (l : List α), l.Nodup → k ≤ l.length →
    ((draws k).map (shuffleLoop k l)).Nodup ∧ ∀ o, o ∈ (draws k).map (shuffleLoop k l) ↔ o.Perm l ∧ o.drop k = l.drop k := by
  intro k
  induction k using Nat.strongRecOn with
  | ind k ih =>
    intro l hl hk
    match k with
    | 0 =>
      refine ⟨by simp [draws], fun o => ?_⟩
      simp only [draws, List.map_cons, List.map_nil, List.mem_singleton, shuffleLoop, List.drop_zero]
      exact ⟨fun h => by subst h; exact ⟨.refl _, rfl⟩, fun h => h.2⟩
    | 1 =>
      refine ⟨by simp [draws], fun o => ?_⟩
      simp only [draws, List.map_cons, List.map_nil, List.mem_singleton, shuffleLoop]
      refine ⟨fun h => by subst h; exact ⟨.refl _, rfl⟩, fun ⟨h1, h2⟩ => ?_⟩
      cases l with
      | nil => exact List.perm_nil.mp h1
      | cons a l =>
        cases o with
        | nil => exact absurd h1.length_eq (by simp)
        | cons b o =>
          simp only [List.drop_succ_cons, List.drop_zero] at h2
          subst h2
          have hn := h1.nodup_iff.mpr hl
          rcases List.mem_cons.mp (h1.mem_iff.mp (List.mem_cons_self ..)) with rfl | hb
          · rfl
          · exact absurd hb (List.nodup_cons.mp hn).1
    | k + 2 =>
      have e : (draws (k + 2)).map (shuffleLoop (k + 2) l) =
          (List.range (k + 2)).flatMap fun c => (draws (k + 1)).map (shuffleLoop (k + 1) (swapAt l (k + 1) c)) := by
        rw [draws, List.map_flatMap]
        congr 1
        funext c
        rw [List.map_map]
        rfl
      have step : ∀ c, c < k + 2 → _ := fun c _ => ih (k + 1) (by omega) (swapAt l (k + 1) c) ((swapAt_perm l (k + 1) c).nodup_iff.mpr hl)
        (by rw [swapAt_length]; omega)
      have hmem : ∀ c (hc : c < k + 2), ∀ o, o ∈ (draws (k + 1)).map (shuffleLoop (k + 1) (swapAt l (k + 1) c)) ↔
          o.Perm l ∧ o.drop (k + 1) = l[c] :: l.drop (k + 2) := by
        intro c hc o
        rw [(step c hc).2 o, swapAt_drop (by omega) (by omega)]
        exact ⟨fun h => ⟨h.1.trans (swapAt_perm ..), h.2⟩, fun h => ⟨h.1.trans (swapAt_perm ..).symm, h.2⟩⟩
      rw [e]
      constructor
      · refine nodup_flatMap_of List.nodup_range (fun c hc => (step c (List.mem_range.mp hc)).1) ?_
        intro c hc c' hc' o h1 h2
        have e1 := ((hmem c (List.mem_range.mp hc) o).mp h1).2
        have e2 := ((hmem c' (List.mem_range.mp hc') o).mp h2).2
        have := (List.cons.inj (e1.symm.trans e2)).1
        exact (List.getElem_inj hl).mp this
      · intro o
        simp only [List.mem_flatMap, List.mem_range]
        constructor
        · rintro ⟨c, hc, h⟩
          obtain ⟨h1, h2⟩ := (hmem c hc o).mp h
          refine ⟨h1, ?_⟩
          have := congrArg (List.drop 1) h2
          simpa [List.drop_drop] using this
        · rintro ⟨h1, h2⟩
          have hlen : k + 1 < o.length := by rw [h1.length_eq]; omega
          obtain ⟨c, hc, hx⟩ := List.getElem_of_mem (h1.mem_iff.mp (List.getElem_mem hlen))
          have hod := List.drop_eq_getElem_cons hlen
          have hlt : c < k + 2 := by
            refine Classical.byContradiction fun hge => ?_
            have hno : o.Nodup := h1.nodup_iff.mpr hl
            have hin : o[k + 1] ∈ o.drop (k + 2) := by
              rw [h2, ← hx]
              have : l[c] = (l.drop (k + 2))[c - (k + 2)]'(by rw [List.length_drop]; omega) := by
                rw [List.getElem_drop]
                congr 1
                omega
              rw [this]
              exact List.getElem_mem _
            have hnd : (o.drop (k + 1)).Nodup := (List.drop_sublist _ _).nodup hno
            rw [hod] at hnd
            exact (List.nodup_cons.mp hnd).1 hin
          exact ⟨c, hlt, (hmem c hlt o).mpr ⟨h1, by rw [hod, h2, hx]⟩⟩

theorem shuffle_all {α : Type} {l : List α} (hl : l.Nodup) :
    ((draws l.length).map (shuffle l)).Nodup ∧ ∀ o, o ∈ (draws l.length).map (shuffle l) ↔ o.Perm l := by
  obtain ⟨h1, h2⟩ := shuffleLoop_all l.length l hl (Nat.le_refl _)
  refine ⟨h1, fun o => (h2 o).trans ⟨fun h => h.1, fun h => ⟨h, ?_⟩⟩⟩
  rw [List.drop_of_length_le (by rw [h.length_eq]; exact Nat.le_refl _), List.drop_length]

/-! ### Symmetry -/

/-- Exchange two numbers. -/
def exchange (i j x : Nat) : Nat := if x = i then j else if x = j then i else x

theorem exchange_twice (i j x : Nat) : exchange i j (exchange i j x) = x := by
  unfold exchange
  split
  · rename_i h
    subst h
    split
    · rename_i h; exact h
    · rw [if_pos rfl]
  · split
    · rename_i h1 h2
      subst h2
      rw [if_pos rfl]
    · rfl

theorem range_exchange {n i j : Nat} (hi : i < n) (hj : j < n) : ((List.range n).map (exchange i j)).Perm (List.range n) := by
  refine (List.perm_ext_iff_of_nodup ?_ List.nodup_range).mpr fun x => ?_
  · refine List.pairwise_map.mpr (List.nodup_range.imp fun h e => h ?_)
    have := congrArg (exchange i j) e
    rwa [exchange_twice, exchange_twice] at this
  · rw [List.mem_map, List.mem_range]
    have key : ∀ y, y < n → exchange i j y < n := by
      intro y hy
      unfold exchange
      split
      · exact hj
      · split
        · exact hi
        · exact hy
    exact ⟨fun ⟨y, hy, e⟩ => e ▸ key y (List.mem_range.mp hy), fun hx => ⟨exchange i j x, List.mem_range.mpr (key x hx), exchange_twice i j x⟩⟩

/-- All orders of `0, ..., n - 1`, each once. -/
def AllOrders (n : Nat) (S : List (List Nat)) : Prop := S.Nodup ∧ ∀ o, o ∈ S ↔ o.Perm (List.range n)

theorem orders_exchange {n i j : Nat} {S : List (List Nat)} (h : AllOrders n S) (hi : i < n) (hj : j < n) :
    (S.map fun o => o.map (exchange i j)).Perm S := by
  have twice : ∀ o : List Nat, (o.map (exchange i j)).map (exchange i j) = o := by
    intro o
    rw [List.map_map]
    conv => rhs; rw [← List.map_id o]
    exact List.map_congr_left fun x _ => exchange_twice i j x
  have closed : ∀ o, o ∈ S → o.map (exchange i j) ∈ S := fun o ho =>
    (h.2 _).mpr ((((h.2 o).mp ho).map _).trans (range_exchange hi hj))
  refine (List.perm_ext_iff_of_nodup ?_ h.1).mpr fun o => ?_
  · refine List.pairwise_map.mpr (h.1.imp fun hne e => hne ?_)
    have := congrArg (List.map (exchange i j)) e
    rwa [twice, twice] at this
  · rw [List.mem_map]
    exact ⟨fun ⟨o', ho', e⟩ => e ▸ closed o' ho', fun ho => ⟨_, closed o ho, twice o⟩⟩

/-- The first of the order that is wanted is `i`. -/
def hits (g : Nat → Bool) (i : Nat) (o : List Nat) : Bool := o.find? g == some i

theorem hits_exchange {g : Nat → Bool} {i j : Nat} (hi : g i = true) (hj : g j = true) (o : List Nat) : hits g i (o.map (exchange i j)) = hits g j o := by
  have e : g ∘ exchange i j = g := by
    funext x
    simp only [Function.comp, exchange]
    split
    · rename_i h; rw [h, hi, hj]
    · split
      · rename_i h; rw [h, hi, hj]
      · rfl
  unfold hits
  rw [List.find?_map, e]
  cases o.find? g with
  | none => rfl
  | some x =>
    have : (exchange i j x = i) ↔ x = j := by
      constructor
      · intro h
        rw [← exchange_twice i j x, h]
        unfold exchange
        rw [if_pos rfl]
      · rintro rfl
        unfold exchange
        split
        · rename_i h; exact h
        · rw [if_pos rfl]
    simp only [Option.map_some]
    by_cases hx : x = j
    · rw [this.mpr hx, hx]; simp
    · have h2 : ¬ exchange i j x = i := fun h => hx (this.mp h)
      rw [show (some (exchange i j x) == some i) = (exchange i j x == i) from rfl, show (some x == some j) = (x == j) from rfl,
        beq_eq_false_iff_ne.mpr h2, beq_eq_false_iff_ne.mpr hx]

theorem hits_equal {n : Nat} {S : List (List Nat)} (h : AllOrders n S) {g : Nat → Bool} {i j : Nat} (hi : i < n) (hj : j < n) (gi : g i = true) (gj : g j = true) :
    S.countP (hits g i) = S.countP (hits g j) := by
  rw [← (orders_exchange h hi hj).countP_eq, List.countP_map]
  congr 1
  funext o
  exact hits_exchange gi gj o

theorem hits_sum {S : List (List Nat)} {g : Nat → Bool} : ∀ (G : List Nat), G.Nodup →
    (G.map fun i => S.countP (hits g i)).sum = S.countP fun o => G.any fun i => hits g i o := by
  intro G
  induction G with
  | nil => intro _; simp
  | cons a G ih =>
    intro hn
    rw [List.nodup_cons] at hn
    rw [List.map_cons, List.sum_cons, ih hn.2]
    clear ih
    induction S with
    | nil => rfl
    | cons o S ih =>
      simp only [List.countP_cons, List.any_cons] at ih ⊢
      cases h1 : hits g a o with
      | false => simp only [Bool.false_eq_true, if_false, Bool.false_or]; omega
      | true =>
        have h2 : (G.any fun i => hits g i o) = false := by
          rw [List.any_eq_false]
          intro b hb h
          simp only [hits, beq_iff_eq] at h h1
          rw [h1] at h
          cases h
          exact hn.1 hb
        simp only [h2, if_true, Bool.true_or, Bool.false_eq_true, if_false]
        omega

/-- Of all orders, those that hit one of the wanted positions `E` are in proportion. -/
theorem hits_share {n : Nat} {S : List (List Nat)} (h : AllOrders n S) {g : Nat → Bool} (E : Nat → Bool) (hg : ∃ i, i < n ∧ g i = true) :
    (S.countP fun o => ((List.range n).filter fun i => g i && E i).any fun i => hits g i o) * ((List.range n).filter g).length =
      S.length * ((List.range n).filter fun i => g i && E i).length := by
  obtain ⟨i0, hi0, gi0⟩ := hg
  have hsum : ∀ G : List Nat, G.Nodup → (∀ i ∈ G, i < n ∧ g i = true) →
      (S.countP fun o => G.any fun i => hits g i o) = S.countP (hits g i0) * G.length := by
    intro G hn hG
    rw [← hits_sum G hn]
    clear hn
    induction G with
    | nil => simp
    | cons a G ih =>
      rw [List.map_cons, List.sum_cons, ih fun i hi => hG i (List.mem_cons_of_mem _ hi), List.length_cons, Nat.mul_succ]
      obtain ⟨h1, h2⟩ := hG a (List.mem_cons_self ..)
      rw [hits_equal h h1 hi0 h2 gi0]
      omega
  have hall : (S.countP fun o => ((List.range n).filter g).any fun i => hits g i o) = S.length := by
    rw [List.countP_eq_length]
    intro o ho
    have hp := (h.2 o).mp ho
    cases hf : o.find? g with
    | none =>
      have := List.find?_eq_none.mp hf i0 (hp.mem_iff.mpr (List.mem_range.mpr hi0))
      exact absurd gi0 this
    | some x =>
      refine List.any_eq_true.mpr ⟨x, ?_, by simp [hits, hf]⟩
      exact List.mem_filter.mpr ⟨hp.mem_iff.mp (List.mem_of_find?_eq_some hf), List.find?_some hf⟩
  have e1 := hsum ((List.range n).filter g) ((List.filter_sublist).nodup List.nodup_range) (fun i hi => by
    obtain ⟨h1, h2⟩ := List.mem_filter.mp hi
    exact ⟨List.mem_range.mp h1, h2⟩)
  have e2 := hsum ((List.range n).filter fun i => g i && E i) ((List.filter_sublist).nodup List.nodup_range) (fun i hi => by
    obtain ⟨h1, h2⟩ := List.mem_filter.mp hi
    rw [Bool.and_eq_true] at h2
    exact ⟨List.mem_range.mp h1, h2.1⟩)
  rw [hall] at e1
  rw [e2, e1, Nat.mul_assoc, Nat.mul_assoc, Nat.mul_comm (List.length _) (List.length _)]

end RustBit
