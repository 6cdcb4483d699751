/-
C119: how many sockets the program has open.
-/
import Verif.Model.Sockets
import Verif.Props.Lifetime

namespace RustBit
open Spec

theorem sum_add {α : Type} (f g : α → Nat) : ∀ l : List α, (l.map fun x => f x + g x).sum = (l.map f).sum + (l.map g).sum
  | [] => rfl
  | x :: l => by simp only [List.map_cons, List.sum_cons, sum_add f g l]; omega

theorem sum_swap {α β : Type} (f : α → β → Nat) (m : List β) : ∀ l : List α, (l.map fun x => (m.map fun y => f x y).sum).sum = (m.map fun y => (l.map fun x => f x y).sum).sum
  | [] => by
    induction m with
    | nil => rfl
    | cons y m ih => simpa using ih
  | x :: l => by
    simp only [List.map_cons, List.sum_cons]
    rw [sum_add, sum_swap f m l]

theorem sum_le_mul {α : Type} (f : α → Nat) (c : Nat) : ∀ l : List α, (∀ x ∈ l, f x ≤ c) → (l.map f).sum ≤ c * l.length
  | [], _ => by simp
  | x :: l, h => by
    have h1 := h x (List.mem_cons_self ..)
    have h2 := sum_le_mul f c l fun y hy => h y (List.mem_cons_of_mem _ hy)
    simp only [List.map_cons, List.sum_cons, List.length_cons, Nat.mul_succ]
    omega

theorem sum_lt_length {α : Type} (f : α → Nat) : ∀ l : List α, (∀ x ∈ l, f x ≤ 1) → (∃ x ∈ l, f x = 0) → (l.map f).sum + 1 ≤ l.length
  | [], _, ⟨_, hx, _⟩ => by cases hx
  | x :: l, h, ⟨y, hy, h0⟩ => by
    have h1 := h x (List.mem_cons_self ..)
    have hl := fun z hz => h z (List.mem_cons_of_mem x hz)
    simp only [List.map_cons, List.sum_cons, List.length_cons]
    rcases List.mem_cons.mp hy with rfl | hy
    · have := sum_le_mul f 1 l hl
      omega
    · have := sum_lt_length f l hl ⟨y, hy, h0⟩
      omega

theorem sum_slots {α : Type} (f : α → Nat) : ∀ l : List α, (l.map f).sum = ((List.range l.length).map fun k => ((l[k]?).map f).getD 0).sum
  | [] => rfl
  | x :: l => by
    rw [List.length_cons, List.range_succ_eq_map, List.map_cons, List.map_cons, List.map_map, List.sum_cons, List.sum_cons, sum_slots f l]
    rfl

theorem count_each {α : Type} (f : α → Nat) (n : Nat) : ∀ l : List α, (∀ x ∈ l, f x < n) → l.length = ((List.range n).map fun k => l.countP fun x => f x == k).sum
  | [], _ => by
    induction n with
    | zero => rfl
    | succ n ih => rw [List.range_succ, List.map_append, List.sum_append, ← ih fun _ h => by cases h]; rfl
  | x :: l, h => by
    have ih := count_each f n l fun y hy => h y (List.mem_cons_of_mem _ hy)
    have hx := h x (List.mem_cons_self ..)
    have one : ∀ m, ((List.range m).map fun k => if f x == k then 1 else 0).sum = if f x < m then 1 else 0 := by
      intro m
      induction m with
      | zero => rfl
      | succ m ihm =>
        rw [List.range_succ, List.map_append, List.sum_append, ihm]
        simp only [List.map_cons, List.map_nil, List.sum_cons, List.sum_nil, beq_iff_eq]
        split <;> split <;> split <;> omega
    simp only [List.countP_cons, List.length_cons]
    rw [sum_add, ← ih, one, if_pos hx]

theorem added_map {A : App} (h : AInv A) : A.trackers.added.map Registered.torrent = List.range A.proc.slots.length := by
  apply List.ext_getElem?
  intro k
  rw [List.getElem?_map, h.added k, Option.map_map]
  cases hs : A.proc.slots[k]? with
  | none => rw [List.getElem?_eq_none (by rw [List.length_range]; exact List.getElem?_eq_none_iff.mp hs)]; rfl
  | some s => rw [List.getElem?_range (List.getElem?_eq_some_iff.mp hs).1]; rfl

theorem added_one {A : App} (h : AInv A) (k : Nat) : (A.trackers.added.countP fun r => r.torrent == k) ≤ 1 := by
  have : (A.trackers.added.countP fun r => r.torrent == k) = (A.trackers.added.map Registered.torrent).count k := by
    rw [List.count, List.countP_map]
    rfl
  rw [this, added_map h, List.nodup_range.count]
  split <;> omega

/-- What a tracker is doing, has done and has failed to do for a torrent is one lookup at most. -/
theorem lookup_once {A : App} (h : AInv A) (k : Nat) {t : TrackerSys} (ht : t ∈ A.trackers.trackers) :
    (t.pending.countP fun r => r.torrent == k) + (t.answered.countP fun r => r.torrent == k) ≤ 1 := by
  have hi := tinv_steps h.trackers tinv_init
  obtain ⟨lost, hp, -⟩ := (hi.each t ht).perm
  have h1 := hp.countP_eq fun r => r.torrent == k
  have h2 := (((List.sublist_append_left _ _).trans (hi.each t ht).sub).trans ((List.sublist_append_left _ _).trans hi.sub)).countP_le (p := fun r : Registered => r.torrent == k)
  have h3 := added_one h k
  simp only [List.countP_append] at h1
  omega

/-- A torrent that has heard of a peer has had an answer from a tracker. -/
theorem told_answered {A : App} (h : AInv A) {k : Nat} {s : Slot} (hs : A.proc.slots[k]? = some s) (ht : s.sys.told ≠ []) :
    ∃ t ∈ A.trackers.trackers, 0 < t.answered.countP fun r => r.torrent == k := by
  have hi := tinv_steps h.trackers tinv_init
  rw [h.told k s hs] at ht
  obtain ⟨p, hp⟩ := List.exists_mem_of_ne_nil _ ht
  obtain ⟨x, hx, -⟩ := List.mem_map.mp hp
  obtain ⟨hx, hxk⟩ := List.mem_filter.mp hx
  have hx := List.mem_of_mem_take hx
  have key : ∀ {log found}, Told log found → x ∈ found → ∃ e ∈ log, e.about.torrent = x.1 := by
    intro log found ht
    induction ht with
    | nil => intro h; cases h
    | snoc _ e qs _ ih =>
      intro h
      rcases List.mem_append.mp h with h | h
      · obtain ⟨e', he, h⟩ := ih h
        exact ⟨e', List.mem_append_left _ he, h⟩
      · obtain ⟨q, -, rfl⟩ := List.mem_map.mp h
        exact ⟨e, List.mem_append_right _ (List.mem_singleton.mpr rfl), rfl⟩
  obtain ⟨e, he, hek⟩ := key hi.told hx
  obtain ⟨u, -, -, -, hu, -⟩ := hi.genuine e he
  have hlen : e.tracker < A.trackers.trackers.length := by
    have := congrArg List.length hi.urls
    rw [List.length_map] at this
    rw [this]
    exact (List.getElem?_eq_some_iff.mp hu).1
  refine ⟨_, List.getElem_mem hlen, List.countP_pos_iff.mpr ⟨e.about, ?_, ?_⟩⟩
  · rw [hi.logged e.tracker _ (List.getElem?_eq_getElem hlen)]
    exact List.mem_map.mpr ⟨e, List.mem_filter.mpr ⟨he, beq_self_eq_true _⟩, rfl⟩
  · rw [hek]
    simpa using hxk

/-- C119: a torrent never has more than 22 sockets: one lookup at each of the 18 trackers and, if one of them has been answered, five connections to peers. -/
theorem C119_each {w : World} {Q : Info → Prop} {fs : FS} {n : Nat} {A : App} (h : ASteps w Q (App.init fs n) A) (k : Nat) :
    A.trackers.socketsFor k ≤ 18 ∧ A.socketsFor k ≤ 22 := by
  have hinv := ainv_steps h (ainv_init fs n)
  have hlen := eighteen_trackers hinv.trackers
  have hone : ∀ t ∈ A.trackers.trackers, (t.pending.countP fun r => r.torrent == k) ≤ 1 := fun t ht => by have := lookup_once hinv k ht; omega
  have h18 : A.trackers.socketsFor k ≤ 18 := by
    have := sum_le_mul _ 1 _ hone
    rw [hlen] at this
    exact this
  refine ⟨h18, ?_⟩
  rw [App.socketsFor]
  cases hs : A.proc.slots[k]? with
  | none => show _ + 0 ≤ 22; omega
  | some s =>
    show _ + s.sys.busy.length ≤ 22
    have h5 := (C41_at_most_five (C84_among h (List.mem_of_getElem? hs))).2
    rw [List.length_append] at h5
    cases hb : s.sys.busy with
    | nil => show _ + 0 ≤ 22; omega
    | cons r rest =>
      rw [hb] at h5
      obtain ⟨p, hp, -⟩ := (hinv.asked k s hs).requests r (by rw [hb]; simp)
      obtain ⟨t, ht, hpos⟩ := told_answered hinv hs (List.ne_nil_of_mem hp)
      have := sum_lt_length _ _ hone ⟨t, ht, by have := lookup_once hinv k ht; omega⟩
      rw [hlen] at this
      have : A.trackers.socketsFor k + 1 ≤ 18 := this
      simp only [List.length_cons] at h5 ⊢
      omega

/-! ### All torrents -/

structure StuckInv (n : Nat) (A : App) : Prop where
  threads : A.threads = n
  home : ∀ h ∈ A.home, h < n
  stuck : ∀ h ∈ A.stuck, h < n
  once : A.stuck.Nodup

theorem stuck_step {w : World} {n : Nat} {A A' : App} (h : StuckInv n A) (hs : AStep w A A') : StuckInv n A' := by
  cases hs with
  | start => exact ⟨h.threads, (fun _ h => by cases h), (fun _ h => by cases h), .nil⟩
  | work => exact ⟨h.threads, h.home, h.stuck, h.once⟩
  | add _ _ _ _ thread hb =>
    refine ⟨h.threads, fun x hx => ?_, h.stuck, h.once⟩
    rcases List.mem_append.mp hx with hx | hx
    · exact h.home x hx
    · rw [List.mem_singleton.mp hx, ← h.threads]; exact hb
  | track => exact ⟨h.threads, h.home, h.stuck, h.once⟩
  | deliver => exact ⟨h.threads, h.home, h.stuck, h.once⟩
  | stick k x s p rest hk hh hf =>
    refine ⟨h.threads, h.home, fun y hy => ?_, List.nodup_cons.mpr ⟨hf, h.once⟩⟩
    rcases List.mem_cons.mp hy with rfl | hy
    · exact h.home _ (List.mem_of_getElem? hh)
    · exact h.stuck y hy
  | stop => exact ⟨h.threads, (fun _ h => by cases h), (fun _ h => by cases h), .nil⟩

theorem stuck_steps {w : World} {Q : Info → Prop} {fs : FS} {n : Nat} {A : App} (h : ASteps w Q (App.init fs n) A) : StuckInv n A := by
  induction h with
  | refl => exact ⟨rfl, (fun _ h => by cases h), (fun _ h => by cases h), .nil⟩
  | tail _ hs _ ih => exact stuck_step ih hs

/-- C119: the sockets are those of the torrents, and those of the threads that wait for ever, one each. -/
theorem C119_sum {w : World} {Q : Info → Prop} {fs : FS} {n : Nat} {A : App} (h : ASteps w Q (App.init fs n) A) :
    A.sockets = ((List.range A.proc.slots.length).map A.socketsFor).sum + A.stuck.length := by
  have hinv := ainv_steps h (ainv_init fs n)
  have hi := tinv_steps hinv.trackers tinv_init
  have hp : A.trackers.sockets = ((List.range A.proc.slots.length).map A.trackers.socketsFor).sum := by
    show (A.trackers.trackers.map fun t => t.pending.length).sum = ((List.range A.proc.slots.length).map fun k => (A.trackers.trackers.map fun t => t.pending.countP fun r => r.torrent == k).sum).sum
    rw [sum_swap (fun k (t : TrackerSys) => t.pending.countP fun r => r.torrent == k)]
    congr 1
    apply List.map_congr_left
    intro t ht
    refine count_each _ _ _ fun r hr => ?_
    obtain ⟨lost, hpm, -⟩ := (hi.each t ht).perm
    have hr' : r ∈ t.spawned := hpm.symm.subset (by simp [hr])
    have hr' := (((List.sublist_append_left _ _).trans (hi.each t ht).sub).trans ((List.sublist_append_left _ _).trans hi.sub)).subset hr'
    have := List.mem_map_of_mem (f := Registered.torrent) hr'
    rw [added_map hinv] at this
    exact List.mem_range.mp this
  rw [App.sockets, hp, sum_slots (fun s : Slot => s.sys.connections), ← sum_add]
  rfl

/-- C119: the program never has more than 22 sockets for every torrent since it was started, and one for every thread. -/
theorem C119_total_partial {w : World} {Q : Info → Prop} {fs : FS} {n : Nat} {A : App} (h : ASteps w Q (App.init fs n) A) : A.sockets ≤ 22 * A.proc.slots.length + n := by
  rw [C119_sum h]
  have h1 := sum_le_mul A.socketsFor 22 (List.range A.proc.slots.length) fun k _ => (C119_each h k).2
  rw [List.length_range] at h1
  have hst := stuck_steps h
  have h2 : A.stuck.length ≤ n := by
    rw [count_each (fun x => x) n A.stuck hst.stuck]
    have := sum_le_mul (fun k => A.stuck.countP fun x => x == k) 1 (List.range n) fun k _ => by
      show A.stuck.count k ≤ 1
      rw [hst.once.count]
      split <;> omega
    rw [List.length_range] at this
    omega
  omega

/-! ### Giving them back -/

/-- C119: in every fair run in which nothing is left lying about, a torrent of which downloads do not fail for ever, whose thread is not stuck and whose lookups all end closes all its
sockets. Missing: lookups that do not end (`C119_refuted`), and as for C116. -/
theorem C119_closed_partial {w : World} {Q : Info → Prop} {fs : FS} {n : Nat} {run : Nat → App} (h : Run w Q fs n run) (hp : Prompt run) {k : Nat} (hf : Fair run k)
    (hfree : ∀ i, (run i).Free k) {s : Slot} (hk : (run 0).proc.slots[k]? = some s) (he : LookupsEnd run k) {B : Nat}
    (hB : ∀ i t, (run i).proc.slots[k]? = some t → downloadsFailed t.sys ≤ B) : ∃ i, ∀ j, i ≤ j → (run j).socketsFor k = 0 := by
  obtain ⟨a, ha⟩ := C116_fair_partial h hp hf hfree hk he hB
  obtain ⟨b, hb⟩ := C116_forgotten h hp hk he
  refine ⟨a + b, fun j hj => ?_⟩
  obtain ⟨-, t, ht, hh⟩ := ha j (by omega)
  have hn := (hb j (by omega)).1
  have hbusy : t.sys.busy = [] := by
    cases e : t.sys.busy with
    | nil => rfl
    | cons r l => exact absurd (.inr (.inl (by rw [e]; simp))) hh
  have h0 : (run j).trackers.socketsFor k ≤ 0 := by
    have := sum_le_mul (fun t : TrackerSys => t.pending.countP fun r => r.torrent == k) 0 (run j).trackers.trackers fun t ht => by
      rw [Nat.le_zero, List.countP_eq_zero]
      intro r hr e
      exact hn (.inr ⟨t, ht, r, List.mem_append_right _ hr, by simpa using e⟩)
    rw [Nat.zero_mul] at this
    exact this
  rw [App.socketsFor, ht]
  show _ + t.sys.busy.length = 0
  rw [hbusy]
  show _ + 0 = 0
  omega

/-! ### Silent trackers -/

theorem many_of_each {α : Type} (f : α → Nat) (c : Nat) : ∀ (N : Nat) (l : List α), (∀ j, j < N → ∃ r ∈ l, f r = c + j) → N ≤ l.length
  | 0, _, _ => Nat.zero_le _
  | N + 1, l, h => by
    have ih := many_of_each f c N (l.filter fun r => f r != c + N) fun j hj => by
      obtain ⟨r, hr, e⟩ := h j (by omega)
      exact ⟨r, List.mem_filter.mpr ⟨hr, by simp [e]; omega⟩, e⟩
    obtain ⟨r, hr, e⟩ := h N (by omega)
    have := List.length_filter_lt_length_iff_exists (p := fun r => f r != c + N).mpr ⟨r, hr, (by simp [e] : ¬ (f r != c + N) = true)⟩
    omega

theorem sum_ge {α : Type} (p : α → Bool) (g : α → Nat) (N : Nat) : ∀ (l l' : List α), (∀ (m : Nat) (x : α), l[m]? = some x → p x = true → ∃ x', l'[m]? = some x' ∧ N ≤ g x') →
    N * (l.filter p).length ≤ (l'.map g).sum
  | [], _, _ => Nat.zero_le _
  | x :: l, [], h => by
    have hn : (x :: l).filter p = [] := by
      rw [List.filter_eq_nil_iff]
      intro y hy hp
      obtain ⟨m, hm⟩ := List.getElem?_of_mem hy
      obtain ⟨_, h1, -⟩ := h m y hm hp
      cases h1
    rw [hn]
    exact Nat.zero_le _
  | x :: l, y :: l', h => by
    have ih := sum_ge p g N l l' fun m z hz hp => h (m + 1) z hz hp
    rw [List.map_cons, List.sum_cons]
    cases hx : p x with
    | false =>
      rw [List.filter_cons_of_neg (by rw [hx]; simp)]
      omega
    | true =>
      obtain ⟨z, hz, hN⟩ := h 0 x rfl hx
      cases hz
      rw [List.filter_cons_of_pos hx, List.length_cons, Nat.mul_succ]
      omega

/-- C119 is false: while the program runs and a thread is not stuck, as many torrents as one likes can be requested, and at every tracker that is left and is silent from now on each of them keeps a
socket for ever, in a run in which nothing is left lying about. -/
theorem C119_refuted {w : World} {Q : Info → Prop} {fs : FS} {n : Nat} {A : App} {body infoHash : Bytes} {thread : Nat} (hrun : ASteps w Q (App.init fs n) A)
    (hlog : A.proc.log ≠ none) (hb : thread < A.threads) (hf : thread ∉ A.stuck) (ha : addMagnet w.build body = (.ok, some infoHash)) (N : Nat) :
    ∃ run, OnSteps w Q A (run 0) ∧ Run w Q fs n run ∧ Prompt run ∧ (∀ j, j < N → Fair run (A.proc.slots.length + j)) ∧
      ∀ i, N * (A.trackers.trackers.filter fun t => t.up).length ≤ (run i).sockets := by
  obtain ⟨T, slots, s1, q1, q0, q2⟩ := to_quiet (w := w) (ainv_steps hrun (ainv_init fs n)) hlog (holds_steps hrun (fun x hx => by cases hx))
  have hA1 := hrun.trans s1.steps
  have hlen : slots.length = A.proc.slots.length := by
    have a := (ainv_steps hA1 (ainv_init fs n)).home
    have b := (ainv_steps hrun (ainv_init fs n)).home
    exact a.symm.trans b
  have s2 := requests (Q := Q) (A := { A with proc := { A.proc with slots }, trackers := T, delivered := T.found.length }) hlog
    (holds_steps hA1 (fun x hx => by cases hx)) hb hf ha N
  have hA2 := hA1.trans s2.steps
  generalize hB : requested _ infoHash thread N = B at s2
  have hBs : B.proc.slots = slots ++ List.replicate N ⟨Sys.init infoHash A.proc.fs, none⟩ := by rw [← hB]; rfl
  have hBl : B.proc.log ≠ none := by rw [← hB]; exact hlog
  have hBd : B.delivered = B.trackers.found.length := by rw [← hB]; rfl
  have hBt : B.trackers.trackers = T.trackers := by rw [← hB]; rfl
  have hBm : B.trackers.mail = T.mail ++ (List.range N).map fun j => ⟨infoHash, slots.length + j⟩ := by rw [← hB]; rfl
  have hA2 := hA1.trans s2.steps
  obtain ⟨T', ⟨d1, d2, d3, d4⟩, d5⟩ := drain_all (ainv_steps hA2 (ainv_init fs n)).trackers
  have s3 := track_steps (w := w) (Q := Q) hBl (holds_steps hA2 (fun x hx => by cases hx)) d1 d2
  have hA3 := hA2.trans s3.steps
  obtain ⟨run, a, r1, r2, r3⟩ := forever hA3 hBl (.refl _)
  have hget : ∀ i j, j < N → (run (a + i)).proc.slots[A.proc.slots.length + j]? = some ⟨Sys.init infoHash A.proc.fs, none⟩ := by
    intro i j hj
    rw [(r3 (a + i) (by omega)).1]
    show B.proc.slots[_]? = _
    rw [hBs, List.getElem?_append_right (by omega), List.getElem?_replicate, if_pos (by omega)]
  refine ⟨fun i => run (a + i), ?_, Run.shift r1 a, rest_prompt (Run.shift r1 a) (a := 0) fun j _ => ?_, fun j hj => ?_, fun i => ?_⟩
  · have := run_on r1 (Nat.zero_le (a + 0))
    rw [r2] at this
    exact ((s1.trans s2).trans s3).trans this
  · rw [(r3 (a + j) (by omega)).2.2.2.1, (r3 (a + j) (by omega)).2.2.2.2]
    exact ⟨d5, hBd.trans (congrArg List.length d3.symm)⟩
  · exact rest_fair (Run.shift r1 a) (m := 0) fun i _ => ⟨_, hget i j hj, rfl, rfl, rfl, fun _ => rfl⟩
  · show _ ≤ (run (a + i)).sockets
    have key := sum_ge (fun t : TrackerSys => t.up) (fun t => t.pending.length) N A.trackers.trackers (run (a + i)).trackers.trackers (by
      intro m x hm hxu
      obtain ⟨x1, hm1, hxu1, -⟩ := q0 m trivial x hm hxu
      obtain ⟨x', g1, g2, g3⟩ := d4 m trivial x1 (by rw [hBt]; exact hm1) hxu1
      rw [(r3 (a + i) (by omega)).2.2.2.1]
      refine ⟨x', g1, many_of_each Registered.torrent slots.length N _ fun j hj => ⟨⟨infoHash, slots.length + j⟩, ?_, rfl⟩⟩
      have hx := g3 ⟨infoHash, slots.length + j⟩ (List.mem_append_left _ (by
        rw [hBm]
        exact List.mem_append_right _ (List.mem_map.mpr ⟨j, List.mem_range.mpr hj, rfl⟩)))
      rw [d5.1, List.nil_append] at hx
      exact (List.mem_append.mp hx).resolve_left (by rw [d5.2 m x' g1]; simp))
    have : (run (a + i)).trackers.sockets = ((run (a + i)).trackers.trackers.map fun t => t.pending.length).sum := rfl
    rw [App.sockets, this]
    omega

/-- In every world a hundred torrents can be requested that keep 1800 sockets for ever. -/
example (w : World) : ∃ run, Run w (fun _ => True) (fun _ => none) 1 run ∧ Prompt run ∧ (∀ j, j < 100 → Fair run j) ∧ ∀ i, 1800 ≤ (run i).sockets := by
  obtain ⟨fs', h1, h2, h3⟩ := started w (fun _ => True) (fs := fun _ => none) 1 (by simp)
  obtain ⟨run, -, g1, g2, g3, g4⟩ := C119_refuted (thread := 0) h1 (by simp) (by show 0 < 1; decide) (by simp) (add1 w.build) 100
  refine ⟨run, g1, g2, fun j hj => by simpa using g3 j hj, fun i => ?_⟩
  have := g4 i
  have e : (Trackers.init.trackers.filter fun t => t.up).length = 18 := by decide +kernel
  have h18 : 100 * (Trackers.init.trackers.filter fun t => t.up).length ≤ (run i).sockets := this
  rw [e] at h18
  exact h18

/-! ### The greatest number -/

/-- As `sum_ge`, but for one place. -/
theorem sum_ge_but {α : Type} (p : α → Bool) (g : α → Nat) : ∀ (j : Nat) (l l' : List α),
    (∀ (m : Nat) (x : α), m ≠ j → l[m]? = some x → p x = true → ∃ x', l'[m]? = some x' ∧ 1 ≤ g x') → (l.filter p).length ≤ (l'.map g).sum + 1
  | _, [], _, _ => Nat.zero_le _
  | 0, x :: l, l', h => by
    have h1 := sum_ge p g 1 l l'.tail fun m z hz hp => by
      obtain ⟨x', h1, h2⟩ := h (m + 1) z (by omega) hz hp
      exact ⟨x', by rw [List.getElem?_tail]; exact h1, h2⟩
    have h2 : (l'.tail.map g).sum ≤ (l'.map g).sum := by
      cases l' with
      | nil => exact Nat.le_refl _
      | cons => simp
    have h3 := List.length_filter_le p [x]
    rw [← List.singleton_append, List.filter_append, List.length_append]
    simp only [List.length_singleton] at h3
    omega
  | j + 1, x :: l, [], h => by
    have h1 := sum_ge_but p g j l [] fun m z hm hz hp => by
      obtain ⟨x', h1, -⟩ := h (m + 1) z (by omega) hz hp
      cases h1
    cases hx : p x with
    | false => rw [List.filter_cons_of_neg (by rw [hx]; simp)]; exact h1
    | true =>
      obtain ⟨z, hz, -⟩ := h 0 x (by omega) rfl hx
      cases hz
  | j + 1, x :: l, y :: l', h => by
    have h1 := sum_ge_but p g j l l' fun m z hm hz hp => h (m + 1) z (by omega) hz hp
    rw [List.map_cons, List.sum_cons]
    cases hx : p x with
    | false =>
      rw [List.filter_cons_of_neg (by rw [hx]; simp)]
      omega
    | true =>
      obtain ⟨z, hz, hN⟩ := h 0 x (by omega) rfl hx
      cases hz
      rw [List.filter_cons_of_pos hx, List.length_cons]
      omega

/-- A writer that has not been handed anything is alive. -/
theorem writer_up {w : World} {s : Sys} (h : Among w s) : s.writerUp = true ∨ s.written ≠ [] := by
  induction h with
  | init => exact .inl rfl
  | disk _ _ ih => exact ih
  | wrote _ r ready hu hr fs up => exact .inr (by simp)
  | step _ hst ih =>
    cases hst with
    | write => exact .inr (by simp)
    | _ => exact ih

/-- A torrent that hears of enough peers starts, and nothing else happens. -/
theorem start_heard {w : World} {info : Info} {n : Nat} (hpos : 0 < n) : ∀ (k : Nat) (s : Sys), s.mail.length = k → Known w info n s →
    11 ≤ s.torrent.peers.length + s.mail.length → s.torrent.peers.length ≤ 10 → reports s.mail = [] →
    ∃ t, Steps w s t ∧ t.lost = s.lost ∧ t.torrent.info = some info ∧ t.torrent.initiated = true ∧ peersReported t = peersReported s ∧
      (∀ G, AllGood G s → AllGood G t) ∧ reports t.mail = [] := by
  intro k
  induction k with
  | zero => intro s hk h h11 h10; omega
  | succ k ih =>
    intro s hk h h11 h10 hr
    by_cases hs : s.torrent.initiated = true
    · exact ⟨s, .refl s, rfl, h.hasInfo, hs, rfl, fun _ hg => hg, hr⟩
    · obtain ⟨t, h1, h2, h3, h4, h5, h6, h7⟩ := hear_mail h hpos (by simpa using hs) (by intro h0; rw [h0] at hk; cases hk)
      have ht := known_steps h h1
      have hrt : reports t.mail = [] := by
        rw [h6]
        cases hm : s.mail with
        | nil => rfl
        | cons m l =>
          rw [hm] at hr
          exact (List.append_eq_nil_iff.mp ((reports_append [m] l).symm.trans hr)).2
      rcases h4 with h4 | h4
      · exact ⟨t, h1, h2, ht.hasInfo, h4, h5, h7, hrt⟩
      · have hlen : t.mail.length = k := by rw [h6, List.length_tail, hk]; omega
        obtain ⟨u, e1, e2, e3, e4, e5, e6, e7⟩ := ih t hlen ht (by omega) h4 hrt
        exact ⟨u, h1.trans e1, by rw [e2, h2], e3, e4, by rw [e5, h5], fun G hg => e6 G (h7 G hg), e7⟩

/-- Workers take all requests, if there are enough of them. -/
theorem take_all {w : World} : ∀ (q : List Request) (s : Sys), s.queue = q → q.length + s.busy.length ≤ s.workers →
    ∃ t, Steps w s t ∧ t.busy.length = q.length + s.busy.length ∧ peersReported t = peersReported s ∧ t.writerUp = s.writerUp ∧ t.torrent = s.torrent
  | [], s, _, _ => ⟨s, .refl s, by simp, rfl, rfl, rfl⟩
  | r :: q, s, hq, hb => by
    obtain ⟨t, h1, h2, h3, h4, h5⟩ := take_all (w := w) q { s with queue := q, busy := s.busy ++ [r] } rfl (by
      simp only [List.length_append, List.length_cons, List.length_nil] at hb ⊢
      omega)
    refine ⟨t, (Steps.single (.take s r q hq (by simp only [List.length_cons] at hb; omega))).trans h1, ?_, h3, h4, h5⟩
    rw [h2]
    simp only [List.length_append, List.length_cons, List.length_nil]
    omega

/-- A torrent with eleven peers in its mailbox can have five connections, before it does anything else. -/
theorem five_busy {w : World} {infoHash : Bytes} {fs : FS} {info : Info} {d : Bytes} (hlen : 2 < infoHash.length)
    (hget : Gettable w infoHash info fs) (hd : Describes w.sha info d) (h64 : d.length < 2 ^ 64) (hpos : 0 < d.length) (h5 : 5 ≤ pieceCount d.length info.pieceLength)
    {l : List PeerEndpoint} (hl : ∀ q ∈ l, ∃ bytes, q ∈ PeerEndpoint.fromBytes bytes) (h11 : 11 ≤ l.length) :
    ∃ t, Steps w { Sys.init infoHash fs with mail := l.map .found } t ∧
      peersReported t = peersReported { Sys.init infoHash fs with mail := l.map .found } ∧ t.writerUp = true ∧ t.torrent.info = some info ∧ t.busy.length = 5 := by
  cases l with
  | nil => simp at h11
  | cons p l =>
    obtain ⟨t, h1, h2, h3, h4, hm, h6, h7⟩ := collect_mail hlen hget (pieceTotal_of hd h64 hpos) hl
    have hst := (announce_all (w := w) (infoHash := infoHash) (fs := fs) (p :: l) hl).trans h1
    obtain ⟨n, hk⟩ := among_known (among_of hst) h2
    have hn := known_count hk hd h64
    obtain ⟨u, e1, e2, e3, e4, e5, e6, e7⟩ := start_heard (by omega) _ t rfl hk
      (by rw [h6, hm, List.length_map]; simp at h11; omega) (by omega) (by
        rw [hm]
        clear hm h11 hl h1 h4 hst
        induction l with
        | nil => rfl
        | cons q l ih => exact ih)
    have hku := known_steps hk e1
    have hempty : u.written ++ u.ready = [] := by
      cases hx : u.written ++ u.ready with
      | nil => rfl
      | cons r rs => exact ((e6 (fun _ _ => False) (h7 _)).2 r (by rw [hx]; exact List.mem_cons_self ..)).elim
    have hlost : u.lost = [] := by rw [e2, h3]
    have hfl : (flight u).length = 5 := by
      have hf := hku.five
      have hp := hku.perm.length_eq
      have hh : handed u = [] := by rw [handed, hempty]; rfl
      rw [hh, hlost, List.append_nil, List.append_nil, List.length_append, List.length_range] at hp
      by_cases hw : waiting u = []
      · rw [hw] at hp
        simp only [List.length_nil] at hp
        omega
      · have := hku.full e4 hw
        rw [hlost] at this
        exact this
    have hqb : u.queue.length + u.busy.length = 5 := by
      simpa [flight, e7] using hfl
    obtain ⟨v, f1, f2, f3, f4, f5⟩ := take_all (w := w) u.queue u rfl (by
      have := hku.workers
      rw [hlost] at this
      simp only [List.length_nil] at this
      omega)
    refine ⟨v, (h1.trans e1).trans f1, by rw [f3, e5, h4], ?_, by rw [f5]; exact e3, by omega⟩
    rw [f4]
    exact (writer_up (among_of (hst.trans e1))).resolve_right (fun h => h (List.append_eq_nil_iff.mp hempty).1)

/-- C119: that many are possible. While the program runs, a request for a torrent of five pieces or more whose metadata can be got can make as many sockets as there are trackers left,
and four more. -/
theorem C119_attained {w : World} {Q : Info → Prop} {A : App} {body infoHash : Bytes} {info : Info} {d : Bytes} (hinv : AInv A)
    (hQA : ∀ x ∈ A.proc.slots, ∀ i, x.sys.torrent.info = some i → Q i) (hrun : A.proc.log ≠ none) (hup : ∃ t ∈ A.trackers.trackers, t.up = true) {thread : Nat}
    (hb : thread < A.threads) (hf : thread ∉ A.stuck) (ha : addMagnet w.build body = (.ok, some infoHash))
    (hget : Gettable w infoHash info A.proc.fs) (hd : Describes w.sha info d) (h64 : d.length < 2 ^ 64) (hpos : 0 < d.length)
    (h5 : 5 ≤ pieceCount d.length info.pieceLength) (hQ : Q info) :
    ∃ A', OnSteps w Q A A' ∧ (A.trackers.trackers.filter fun t => t.up).length + 4 ≤ A'.socketsFor A.proc.slots.length := by
  obtain ⟨A2, y, l, s3, c1, c2, c3, c4, c5, c6, c7, d1, ⟨d2, fs1, d3⟩, h11, -, hpeers, -, j, hj⟩ := request_heard' (w := w) (Q := Q) hinv hQA hrun hup hb hf ha
  have hinv2 := ainv_steps s3.steps hinv
  obtain ⟨T, g1, g2⟩ := drain_all hinv2.trackers
  have hrun2 : A2.proc.log ≠ none := by rw [c1]; exact hrun
  have hQ2 := holds_steps s3.steps hQA
  have s4 := track_steps (w := w) (Q := Q) hrun2 hQ2 g1.1 g1.2.1
  obtain ⟨t, t1, t2, t3, t4, t5⟩ := five_busy (by have := addMagnet_length ha; omega) hget hd h64 hpos h5 hpeers h11
  have hfree : App.Free { A2 with trackers := T } A.proc.slots.length := by
    refine ⟨thread, ?_, by show thread ∉ A2.stuck; rw [c3]; exact hf⟩
    show A2.home[_]? = _
    rw [c5, ← hinv.home]
    simp
  have hat : At A2.proc A.proc.slots.length { Sys.init infoHash A.proc.fs with mail := l.map .found } := by
    obtain ⟨ys, yp⟩ := y
    simp only [] at d2 d3
    refine ⟨ys, by rw [← d2]; exact d1, ?_⟩
    rw [d3]
    simp only [c2]
    rfl
  obtain ⟨P', p1, ⟨z, p2, p6⟩, -⟩ := alift_steps (w := w) (Q := Q) (A := { A2 with trackers := T }) hrun2 hfree (among_of (announce_all l hpeers)) hat t1 t2 t3 hQ2
    (fun i hi => by rw [t4] at hi; cases hi; exact hQ)
  refine ⟨_, (s3.trans s4).trans p1, ?_⟩
  show _ ≤ T.socketsFor A.proc.slots.length + ((P'.slots[A.proc.slots.length]?).map fun s => s.sys.connections).getD 0
  rw [p2]
  show _ ≤ T.socketsFor A.proc.slots.length + z.busy.length
  have hz : z.busy.length = 5 := by
    have := congrArg Sys.busy p6
    simp only [] at this
    rw [this, t5]
  have := sum_ge_but (fun t : TrackerSys => t.up) (fun t : TrackerSys => t.pending.countP fun r => r.torrent == A.proc.slots.length) j A.trackers.trackers T.trackers
    fun m x hm hx hux => by
      obtain ⟨x1, a1, a2, a3⟩ := hj m hm x hx hux
      obtain ⟨x2, b1, b2, b3⟩ := g1.2.2.2 m trivial x1 a1 a2
      refine ⟨x2, b1, ?_⟩
      have hx := b3 _ a3
      rw [g2.1, g2.2 m x2 b1, List.nil_append, List.nil_append] at hx
      exact List.countP_pos_iff.mpr ⟨_, hx, by simp⟩
  have e : T.socketsFor A.proc.slots.length = (T.trackers.map fun t => t.pending.countP fun r => r.torrent == A.proc.slots.length).sum := rfl
  omega

/-- Metadata of five pieces of one byte each. -/
def fiveBytes (sha : Bytes → Bytes) : Info := ⟨none, some 5, b!"a", 1, sha [7] ++ (sha [7] ++ (sha [7] ++ (sha [7] ++ sha [7])))⟩

theorem fiveBytes_describes {sha : Bytes → Bytes} (hsha : ∀ b, (sha b).length = 20) : Describes sha (fiveBytes sha) [7, 7, 7, 7, 7] where
  total := rfl
  pieceLength := by show 0 < 1; decide
  hashes := by
    intro k hk
    have hk : k < pieceCount 5 1 := hk
    rw [show pieceCount 5 1 = 5 by decide] at hk
    have h := hsha [7]
    rcases (by omega : k = 0 ∨ k = 1 ∨ k = 2 ∨ k = 3 ∨ k = 4) with rfl | rfl | rfl | rfl | rfl
    all_goals
      simp only [fiveBytes]
      show _ = sha [7]
      generalize sha [7] = l at h
      simp [List.drop_append, h, List.drop_of_length_le, List.take_of_length_le]

/-- In every world, a torrent of five bytes can have 22 sockets. -/
example (w : World) (hsha : ∀ b, (w.sha b).length = 20) :
    ∃ A, ASteps w (fun _ => True) (App.init (cachedFs w.cwd (List.replicate 20 17) (fiveBytes w.sha)) 1) A ∧ A.socketsFor 0 = 22 := by
  have hlog : cachedFs w.cwd (List.replicate 20 17) (fiveBytes w.sha) (w.cwd ++ [b!"test.log"]) = none := by
    rw [cachedFs, if_neg (other_name (by decide) []), if_neg]
    intro e
    have := congrArg List.length e
    simp [cacheLoc] at this
  obtain ⟨fs', h1, h2, h3⟩ := started w (fun _ => True) (fs := cachedFs w.cwd (List.replicate 20 17) (fiveBytes w.sha)) 1 (by rw [hlog]; simp)
  have hc := cachedFs_cached w.cwd (List.replicate 20 17) (fiveBytes w.sha)
  have hc' : Cached fs' w.cwd (List.replicate 20 17) (fiveBytes w.sha) :=
    ⟨(h3 _ (other_name (by decide) [])).trans hc.1, by show readFile fs' _ = _; rw [readFile, h3 (cacheLoc w.cwd (List.replicate 20 17)) (other_name (by decide) _)]; exact hc.2⟩
  obtain ⟨A, g1, g2⟩ := C119_attained (w := w) (Q := fun _ => True) (thread := 0) (ainv_steps h1 (ainv_init _ _)) (fun _ _ _ _ => trivial) (by simp) init_up
    (by show 0 < 1; decide) (by simp) (add1 w.build) (.inr ⟨hc', by show validUtf8 b!"a" = true; decide +kernel, by show 1 < 2 ^ 64; decide, by intro n h; cases h; decide, by intro fs h; cases h⟩)
    (fiveBytes_describes hsha) (by decide) (by decide) (by show 5 ≤ pieceCount 5 1; decide) trivial
  have hA := h1.trans g1.steps
  refine ⟨A, hA, Nat.le_antisymm (C119_each hA 0).2 ?_⟩
  have e : (Trackers.init.trackers.filter fun t => t.up).length = 18 := by decide +kernel
  have h22 : (Trackers.init.trackers.filter fun t => t.up).length + 4 ≤ A.socketsFor 0 := g2
  rw [e] at h22
  exact h22

end RustBit
