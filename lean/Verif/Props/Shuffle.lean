/-
Property C110: peers that failed as seldom as each other are asked as often as each other.
-/
import Verif.Proofs.Shuffle
import Verif.Props.Actors

namespace RustBit
open Spec

/-- C110: the shuffle is fair: every order of a list without repetitions is reached by just one of the ways to draw. -/
theorem C110_fair {α : Type} {l : List α} (hl : l.Nodup) :
    ((draws l.length).map (shuffle l)).Nodup ∧ ∀ o, o ∈ (draws l.length).map (shuffle l) ↔ o.Perm l :=
  shuffle_all hl

example : (draws 3).map (shuffle [b!"a", b!"b", b!"c"]) =
    [[b!"b", b!"c", b!"a"], [b!"c", b!"b", b!"a"], [b!"c", b!"a", b!"b"], [b!"a", b!"c", b!"b"], [b!"b", b!"a", b!"c"], [b!"a", b!"b", b!"c"]] := by
  decide

/-- The shuffle only changes the order, as assumed in the model of the torrent. -/
theorem shuffle_perm {α : Type} (l : List α) (cs : List Nat) : (shuffle l cs).Perm l := by
  have : ∀ (k : Nat) (l : List α) (cs : List Nat), (shuffleLoop k l cs).Perm l := by
    intro k
    induction k using Nat.strongRecOn with
    | ind k ih =>
      intro l cs
      match k, cs with
      | 0, _ => simp [shuffleLoop]
      | 1, _ => simp [shuffleLoop]
      | k + 2, [] => simp [shuffleLoop]
      | k + 2, c :: cs =>
        rw [shuffleLoop]
        exact (ih (k + 1) (by omega) _ _).trans (swapAt_perm ..)
  exact this _ _ _

/-- The class of peers from which one is taken. -/
def bestClass (peers : List TPeer) (p : TPeer) : Bool :=
  if peers.any (fun p => p.failed < 2) then p.failed < 2 else if peers.any (fun p => p.failed < 4) then p.failed < 4 else true

theorem best_class (peers : List TPeer) : best peers = peers.filter (bestClass peers) := by
  unfold best bestClass
  split
  · rfl
  · split
    · rfl
    · rw [List.filter_eq_self.mpr (fun _ _ => rfl)]

theorem find_class {l peers : List TPeer} (h : l.Perm peers) (hne : peers ≠ []) :
    ∃ p, l.find? (bestClass peers) = some p ∧ (TPeer.findSuitablePeer l : Res Unit Bytes) = .ok p.endpoint := by
  unfold bestClass TPeer.findSuitablePeer
  have hany : ∀ q : TPeer → Bool, peers.any q = l.any q := by
    intro q
    rw [Bool.eq_iff_iff, List.any_eq_true, List.any_eq_true]
    exact ⟨fun ⟨x, hx, hq⟩ => ⟨x, h.mem_iff.mpr hx, hq⟩, fun ⟨x, hx, hq⟩ => ⟨x, h.mem_iff.mp hx, hq⟩⟩
  rw [hany, hany]
  cases h2 : l.find? (fun p => decide (p.failed < 2)) with
  | some p =>
    have : l.any (fun p => decide (p.failed < 2)) = true :=
      List.any_eq_true.mpr ⟨p, List.mem_of_find?_eq_some h2, by simpa using List.find?_some h2⟩
    simp only [this, if_true]
    exact ⟨p, h2, rfl⟩
  | none =>
    have : l.any (fun p => decide (p.failed < 2)) = false := by
      rw [List.any_eq_false]
      exact fun x hx => List.find?_eq_none.mp h2 x hx
    simp only [this, Bool.false_eq_true, if_false]
    cases h4 : l.find? (fun p => decide (p.failed < 4)) with
    | some p =>
      have : l.any (fun p => decide (p.failed < 4)) = true :=
        List.any_eq_true.mpr ⟨p, List.mem_of_find?_eq_some h4, by simpa using List.find?_some h4⟩
      simp only [this, if_true]
      exact ⟨p, h4, rfl⟩
    | none =>
      have : l.any (fun p => decide (p.failed < 4)) = false := by
        rw [List.any_eq_false]
        exact fun x hx => List.find?_eq_none.mp h4 x hx
      simp only [this, Bool.false_eq_true, if_false]
      cases l with
      | nil => exact absurd h.symm.eq_nil hne
      | cons p l => exact ⟨p, by simp, rfl⟩

/-- C110, exactly: of all ways to draw, the share in which an address is chosen is its share of the entries that failed least. -/
theorem C110_share {peers : List TPeer} (hne : peers ≠ []) (e : Bytes) :
    ((draws peers.length).countP fun cs => decide ((TPeer.findSuitablePeer (shuffle peers cs) : Res Unit Bytes) = .ok e)) * (best peers).length =
      (draws peers.length).length * ((best peers).filter fun p => p.endpoint = e).length := by
  cases hp : peers with
  | nil => exact absurd hp hne
  | cons p0 rest =>
  rw [← hp]
  generalize hget : (fun i => peers.getD i p0) = get
  have hmap : (List.range peers.length).map get = peers := by
    apply List.ext_getElem?
    intro i
    rw [List.getElem?_map]
    by_cases hi : i < peers.length
    · rw [List.getElem?_range hi, ← hget]
      simp [hi]
    · rw [List.getElem?_eq_none (by simpa using hi), List.getElem?_eq_none (by omega)]
      rfl
  have hS := C110_fair (List.nodup_range (n := peers.length))
  rw [List.length_range] at hS
  have hsh : ∀ cs, shuffle peers cs = (shuffle (List.range peers.length) cs).map get := by
    intro cs
    conv => lhs; rw [← hmap]
    unfold shuffle
    rw [shuffleLoop_map, List.length_map]
  have hbest : ∀ E : TPeer → Bool, ((best peers).filter E).length = ((List.range peers.length).filter fun i => bestClass peers (get i) && E (get i)).length := by
    intro E
    rw [best_class, List.filter_filter]
    conv => lhs; rw [show List.filter (fun a => E a && bestClass peers a) peers = List.filter (fun a => E a && bestClass peers a) ((List.range peers.length).map get) by rw [hmap]]
    rw [List.filter_map, List.length_map]
    congr 1
    exact List.filter_congr fun i _ => Bool.and_comm _ _
  have h1 := hbest (fun _ => true)
  rw [List.filter_eq_self.mpr (fun _ _ => rfl)] at h1
  simp only [Bool.and_true] at h1
  have hex : ∃ i, i < peers.length ∧ bestClass peers (get i) = true := by
    obtain ⟨p, h2, -⟩ := find_class (.refl peers) hne
    obtain ⟨i, hi, rfl⟩ := List.getElem_of_mem (List.mem_of_find?_eq_some h2)
    refine ⟨i, hi, ?_⟩
    have := List.find?_some h2
    rw [← hget]
    simpa [hi] using this
  have hs := hits_share (g := fun i => bestClass peers (get i)) hS (fun i => decide ((get i).endpoint = e)) hex
  rw [List.length_map, List.countP_map] at hs
  rw [h1, hbest (fun p => decide (p.endpoint = e)), ← hs]
  congr 1
  refine List.countP_congr fun cs hcs => ?_
  have hperm : (shuffle (List.range peers.length) cs).Perm (List.range peers.length) := shuffle_perm _ _
  have hperm' : (shuffle peers cs).Perm peers := shuffle_perm _ _
  obtain ⟨p, h2, h3⟩ := find_class hperm' hne
  rw [hsh, List.find?_map] at h2
  obtain ⟨x, h4, h5⟩ := Option.map_eq_some_iff.mp h2
  have hx : x < peers.length := List.mem_range.mp (hperm.mem_iff.mp (List.mem_of_find?_eq_some h4))
  have hg : (bestClass peers ∘ get) x = true := List.find?_some h4
  rw [decide_eq_true_eq, h3]
  simp only [Function.comp, List.any_eq_true, List.mem_filter, List.mem_range, Bool.and_eq_true, decide_eq_true_eq, hits, beq_iff_eq]
  have h4' : List.find? (fun i => bestClass peers (get i)) (shuffle (List.range peers.length) cs) = some x := h4
  rw [h4']
  constructor
  · intro h
    exact ⟨x, ⟨hx, hg, by rw [h5]; exact Res.ok.inj h⟩, rfl⟩
  · rintro ⟨i, ⟨-, -, h6⟩, h7⟩
    cases h7
    rw [← h5, h6]

/-- C110 for peers that have been named once: each of those that failed least is chosen in the same share of the ways to draw, and no other is chosen.
Missing: peers that have been named several times (`C110_refuted`). -/
theorem C110_even_partial {peers : List TPeer} (hn : (peers.map TPeer.endpoint).Nodup) {p : TPeer} (hp : p ∈ best peers) :
    ((draws peers.length).countP fun cs => decide ((TPeer.findSuitablePeer (shuffle peers cs) : Res Unit Bytes) = .ok p.endpoint)) * (best peers).length =
      (draws peers.length).length := by
  have hsub : (best peers).Sublist peers := by rw [best_class]; exact List.filter_sublist
  rw [C110_share (List.ne_nil_of_mem (hsub.subset hp))]
  have hone : ((best peers).filter fun q => q.endpoint = p.endpoint).length = 1 := by
    have hnd : ((best peers).map TPeer.endpoint).Nodup := (hsub.map _).nodup hn
    generalize best peers = l at hp hnd
    have := List.nodup_iff_count.mp hnd p.endpoint
    have h2 : 0 < (l.map TPeer.endpoint).count p.endpoint := List.count_pos_iff.mpr (List.mem_map_of_mem hp)
    rw [List.count, List.countP_map] at this h2
    rw [← List.countP_eq_length_filter]
    have e : l.countP ((fun x => x == p.endpoint) ∘ TPeer.endpoint) = l.countP fun q => decide (q.endpoint = p.endpoint) :=
      List.countP_congr fun q _ => by simp
    omega
  rw [hone, Nat.mul_one]

/-- Non-vacuity: two peers that failed least, among three. -/
example : (([⟨b!"a", 0, 1⟩, ⟨b!"b", 7, 2⟩, ⟨b!"c", 0, 0⟩] : List TPeer).map TPeer.endpoint).Nodup ∧
    (⟨b!"c", 0, 0⟩ : TPeer) ∈ best [⟨b!"a", 0, 1⟩, ⟨b!"b", 7, 2⟩, ⟨b!"c", 0, 0⟩] ∧ (best [⟨b!"a", 0, 1⟩, ⟨b!"b", 7, 2⟩, ⟨b!"c", 0, 0⟩]).length = 2 := by
  decide

/-- C110 refuted: a peer that has been named twice is chosen twice as often as one that has been named once. -/
theorem C110_refuted : ∃ peers : List TPeer, (∀ p ∈ peers, p.failed = 0) ∧
    ((draws peers.length).countP fun cs => decide ((TPeer.findSuitablePeer (shuffle peers cs) : Res Unit Bytes) = .ok b!"a")) = 4 ∧
    ((draws peers.length).countP fun cs => decide ((TPeer.findSuitablePeer (shuffle peers cs) : Res Unit Bytes) = .ok b!"b")) = 2 :=
  ⟨[TPeer.new b!"a", TPeer.new b!"b", TPeer.new b!"a"], by decide, by decide, by decide⟩

end RustBit
