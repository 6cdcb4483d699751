/-
Property C113: the time a download takes.
-/
import Verif.Props.FairTrackers
import Verif.Spec.Timed

namespace RustBit
open Spec

/-! ### Counting -/

/-- A list whose elements are all, and as often, in another is not longer. -/
theorem length_le_of_count {l m : List Nat} (h : ∀ a, l.count a ≤ m.count a) : l.length ≤ m.length := by
  induction l generalizing m with
  | nil => exact Nat.zero_le _
  | cons x l ih =>
    have hx : x ∈ m := by
      have := h x
      rw [List.count_cons_self] at this
      exact List.count_pos_iff.mp (by omega)
    have := ih (m := m.erase x) fun a => by
      have := h a
      by_cases hax : a = x
      · subst hax
        rw [List.count_cons_self] at this
        rw [List.count_erase_self]
        omega
      · rw [List.count_cons_of_ne (fun e => hax e.symm)] at this
        rw [List.count_erase_of_ne hax]
        exact this
    rw [List.length_erase_of_mem hx] at this
    have := List.length_pos_of_mem hx
    rw [List.length_cons]
    omega

/-! ### What a step does to a piece -/

/-- How pieces get on. -/
structure Onwards (s t : Sys) : Prop where
  queue : ∀ p ∈ s.queue.map Request.idx, p ∈ t.queue.map Request.idx ∨ p ∈ t.busy.map Request.idx
  busy : ∀ p ∈ s.busy.map Request.idx, p ∈ t.busy.map Request.idx ∨ p ∈ reports t.mail ∨ (over s).count p < (over t).count p
  mail : ∀ p ∈ reports s.mail, p ∈ reports t.mail ∨ (over s).count p < (over t).count p
  grows : ∀ p, (over s).count p ≤ (over t).count p
  made : ∀ p ∈ downloaded t, p ∈ downloaded s ∨ p ∈ s.busy.map Request.idx
  kept : ∀ p ∈ downloaded s, p ∈ downloaded t
  fewer : t.workers ≤ s.workers
  log : ∃ l, t.handled = s.handled ++ l

theorem failedPieces_append (a b : List Mail) : failedPieces (a ++ b) = failedPieces a ++ failedPieces b := List.filterMap_append ..

/-- The pieces reported as downloaded. -/
def succeeded (mail : List Mail) : List Nat :=
  mail.filterMap fun m => match m with
    | .success _ _ i => some i
    | _ => none

theorem succeeded_append (a b : List Mail) : succeeded (a ++ b) = succeeded a ++ succeeded b := List.filterMap_append ..

theorem downloaded_eq (s : Sys) : downloaded s = handed s ++ succeeded s.mail := rfl

theorem downloaded_more (s : Sys) {l : List Mail} (h : succeeded l = []) (p : Nat) : p ∈ handed s ++ succeeded (s.mail ++ l) ↔ p ∈ downloaded s := by
  rw [succeeded_append, h, List.append_nil, downloaded_eq]

theorem onwards_after {s : Sys} {msg : Mail} {rest : List Mail} {o : Outcome} (hm : s.mail = msg :: rest) (hr : o.ready.map Ready.idx = succeeded [msg]) :
    Onwards s (s.after msg rest o) := by
  have hh : handed (s.after msg rest o) = handed s ++ succeeded [msg] := by
    simp [handed, Sys.after, ← hr]
  have ho : ∀ p, (over (s.after msg rest o)).count p = (over s).count p + (succeeded [msg]).count p + (failedPieces [msg]).count p := by
    intro p
    show (handed (s.after msg rest o) ++ s.lost ++ failedPieces (s.handled ++ [msg])).count p = _
    rw [hh, failedPieces_append]
    simp only [over, List.count_append]
    omega
  refine ⟨fun p hp => .inl ?_, fun p hp => .inl hp, fun p hp => ?_, fun p => by rw [ho]; omega, fun p hp => .inl ?_, fun p hp => ?_, Nat.le_refl _, [msg], rfl⟩
  · show p ∈ (s.queue ++ o.requests).map _
    rw [List.map_append]
    exact List.mem_append_left _ hp
  · rw [hm] at hp
    cases msg with
    | found q => exact .inl hp
    | success e pc i =>
      rcases List.mem_cons.mp hp with rfl | hp
      · right; rw [ho]; simp [succeeded, failedPieces]
      · exact .inl hp
    | failed e i =>
      rcases List.mem_cons.mp hp with rfl | hp
      · right; rw [ho]; simp [succeeded, failedPieces]
      · exact .inl hp
  · rw [downloaded_eq, hh] at hp
    rw [downloaded_eq, hm, ← List.singleton_append, succeeded_append, ← List.append_assoc]
    exact hp
  · rw [downloaded_eq, hh]
    rw [downloaded_eq, hm, ← List.singleton_append, succeeded_append, ← List.append_assoc] at hp
    exact hp

theorem onwards_step {w : World} {info : Info} {n : Nat} {s t : Sys} (h : Known w info n s) (hst : Step w s t) : Onwards s t := by
  cases hst with
  | announce bytes p hp =>
    refine ⟨fun p hp => .inl hp, fun p hp => .inl hp, fun p hp => .inl (by rw [reports_append]; exact List.mem_append_left _ hp), fun p => Nat.le_refl _,
      fun q hq => .inl ?_, fun q hq => ?_, Nat.le_refl _, [], by simp⟩
    · exact (downloaded_more s rfl q).mp hq
    · exact (downloaded_more s (l := [.found p]) rfl q).mpr hq
  | take r queue hq hb =>
    refine ⟨fun p hp => ?_, fun p hp => .inl (by rw [List.map_append]; exact List.mem_append_left _ hp), fun p hp => .inl hp, fun p => Nat.le_refl _, fun p hp => .inl hp,
      fun p hp => hp, Nat.le_refl _, [], by simp⟩
    rw [hq] at hp
    rcases List.mem_cons.mp hp with rfl | hp
    · exact .inr (by simp)
    · exact .inl hp
  | finishOk pre post r hb tcp f peerId piece hd =>
    refine ⟨fun p hp => .inl hp, fun p hp => ?_, fun p hp => .inl (by rw [reports_append]; exact List.mem_append_left _ hp), fun p => Nat.le_refl _, fun p hp => ?_, fun p hp => ?_, Nat.le_refl _, [], by simp⟩
    · rw [hb, List.map_append, List.map_cons] at hp
      rcases List.mem_append.mp hp with hp | hp
      · exact .inl (by rw [List.map_append]; exact List.mem_append_left _ hp)
      · rcases List.mem_cons.mp hp with rfl | hp
        · exact .inr (.inl (by rw [reports_append]; simp))
        · exact .inl (by rw [List.map_append]; exact List.mem_append_right _ hp)
    · rw [downloaded_eq, succeeded_append, ← List.append_assoc] at hp
      rcases List.mem_append.mp hp with hp | hp
      · exact .inl hp
      · simp [succeeded] at hp
        right
        rw [hb, hp]
        simp
    · rw [downloaded_eq, succeeded_append, ← List.append_assoc]
      exact List.mem_append_left _ hp
  | finishErr pre post r hb tcp f peerId e hd =>
    refine ⟨fun p hp => .inl hp, fun p hp => ?_, fun p hp => .inl (by rw [reports_append]; exact List.mem_append_left _ hp), fun p => Nat.le_refl _, fun p hp => .inl ?_, fun p hp => ?_, Nat.le_refl _, [], by simp⟩
    · rw [hb, List.map_append, List.map_cons] at hp
      rcases List.mem_append.mp hp with hp | hp
      · exact .inl (by rw [List.map_append]; exact List.mem_append_left _ hp)
      · rcases List.mem_cons.mp hp with rfl | hp
        · exact .inr (.inl (by rw [reports_append]; simp))
        · exact .inl (by rw [List.map_append]; exact List.mem_append_right _ hp)
    · exact (downloaded_more s rfl p).mp hp
    · exact (downloaded_more s (l := [.failed r.endpoint r.idx]) rfl p).mpr hp
  | finishPanic pre post r hb tcp f peerId hd =>
    have ho : ∀ p, (handed s ++ (s.lost ++ [r.idx]) ++ failedPieces s.handled).count p = (over s).count p + [r.idx].count p := by
      intro p
      simp only [over, List.count_append]
      omega
    refine ⟨fun p hp => .inl hp, fun p hp => ?_, fun p hp => .inl hp, fun p => by have := ho p; show _ ≤ (handed s ++ (s.lost ++ [r.idx]) ++ failedPieces s.handled).count p; omega,
      fun p hp => .inl hp, fun p hp => hp, Nat.sub_le _ _, [], by simp⟩
    rw [hb, List.map_append, List.map_cons] at hp
    rcases List.mem_append.mp hp with hp | hp
    · exact .inl (by rw [List.map_append]; exact List.mem_append_left _ hp)
    · rcases List.mem_cons.mp hp with rfl | hp
      · right; right
        show _ < (handed s ++ (s.lost ++ [r.idx]) ++ failedPieces s.handled).count r.idx
        rw [ho]
        simp
      · exact .inl (by rw [List.map_append]; exact List.mem_append_right _ hp)
  | success e piece i rest hd hm =>
    obtain ⟨files, hfiles⟩ := getFiles_of_total h.total
    refine onwards_after hm ?_
    simp only [Torrent.onSuccess, h.hasInfo, hfiles, h.pool]
    rfl
  | failed e i rest hd hm shuffled hs =>
    refine onwards_after hm ?_
    unfold Torrent.onFailed
    rw [h.pool, h.hasInfo]
    dsimp only
    split <;> rfl
  | collect p rest hd hm hi => rw [h.hasInfo] at hi; cases hi
  | found p rest hd hm info' hi shuffles hn hs =>
    refine onwards_after hm ?_
    unfold Torrent.onReady
    split
    · split <;> rfl
    · rfl
  | write r ready hu hr res fs hw =>
    have hh : (s.written ++ [r] ++ ready).map Ready.idx = handed s := by simp [handed, hr]
    refine ⟨fun p hp => .inl hp, fun p hp => .inl hp, fun p hp => .inl hp, fun p => ?_, fun p hp => .inl ?_, fun p hp => ?_, Nat.le_refl _, [], by simp⟩
    · show _ ≤ ((s.written ++ [r] ++ ready).map Ready.idx ++ s.lost ++ failedPieces s.handled).count p
      rw [hh]
      exact Nat.le_refl _
    · rw [downloaded_eq]
      have : p ∈ (s.written ++ [r] ++ ready).map Ready.idx ++ succeeded s.mail := hp
      rwa [hh] at this
    · show p ∈ (s.written ++ [r] ++ ready).map Ready.idx ++ succeeded s.mail
      rw [hh]
      exact hp

theorem Onwards.same (s : Sys) (fs : FS) : Onwards s { s with fs } :=
  ⟨fun _ h => .inl h, fun _ h => .inl h, fun _ h => .inl h, fun _ => Nat.le_refl _, fun _ h => .inl h, fun _ h => h, Nat.le_refl _, [], by simp⟩

theorem onwards_move {w : World} {info : Info} {n : Nat} {s s' : Slot} (h : Known w info n s.sys) (hm : Move w s s') : Onwards s.sys s'.sys := by
  cases hm with
  | still _ fs e => rw [e]; exact Onwards.same _ fs
  | act _ fs hst hw =>
    have := onwards_step (s := { s.sys with fs }) (known_fs h fs) hst
    exact ⟨this.queue, this.busy, this.mail, this.grows, this.made, this.kept, this.fewer, this.log⟩
  | told _ fs p e =>
    rw [e]
    refine ⟨fun p hp => .inl hp, fun p hp => .inl hp, fun p hp => .inl (by rw [reports_append]; exact List.mem_append_left _ hp), fun p => Nat.le_refl _,
      fun q hq => .inl ?_, fun q hq => ?_, Nat.le_refl _, [], by simp⟩
    · exact (downloaded_more s.sys rfl q).mp hq
    · exact (downloaded_more s.sys (l := [.found p]) rfl q).mpr hq
  | begin ws hp e => rw [e]; exact Onwards.same _ s.sys.fs
  | part x xs hp e => rw [e]; exact Onwards.same _ s.sys.fs
  | done r ready up hr e =>
    have hh : (s.sys.written ++ [r] ++ ready).map Ready.idx = handed s.sys := by simp [handed, hr]
    rw [e]
    refine ⟨fun p hp => .inl hp, fun p hp => .inl hp, fun p hp => .inl hp, fun p => ?_, fun p hp => .inl ?_, fun p hp => ?_, Nat.le_refl _, [], by rw [List.append_nil]; rfl⟩
    · show _ ≤ ((s.sys.written ++ [r] ++ ready).map Ready.idx ++ s.sys.lost ++ failedPieces s.sys.handled).count p
      rw [hh]
      exact Nat.le_refl _
    · rw [downloaded_eq]
      have : p ∈ (s.sys.written ++ [r] ++ ready).map Ready.idx ++ succeeded s.sys.mail := hp
      rwa [hh] at this
    · show p ∈ (s.sys.written ++ [r] ++ ready).map Ready.idx ++ succeeded s.sys.mail
      rw [hh]
      exact hp

/-! ### Along a run -/

theorem initiated_move {w : World} {s s' : Slot} (h : s.sys.torrent.initiated = true) (hm : Move w s s') : s'.sys.torrent.initiated = true := by
  cases hm with
  | still _ fs e => rw [e]; exact h
  | act _ fs hst hw => exact initiated_step (s := { s.sys with fs }) h hst
  | told _ fs p e => rw [e]; exact h
  | begin ws hp e => rw [e]; exact h
  | part x xs hp e => rw [e]; exact h
  | done r ready up hr e => rw [e]; exact h

/-- The states of a torrent with metadata. -/
structure View (w : World) (run : Nat → App) (k : Nat) (info : Info) (c : Nat) (f : Nat → Slot) : Prop where
  at_ : ∀ i, (run i).proc.slots[k]? = some (f i)
  known : ∀ i, Known w info c (f i).sys
  onwards : ∀ i, Onwards (f i).sys (f (i + 1)).sys
  later : ∀ i j, i ≤ j → Later (f i).sys (f j).sys
  begun : ∀ i j, i ≤ j → (f i).sys.torrent.initiated = true → (f j).sys.torrent.initiated = true

theorem run_view {w : World} {Q : Info → Prop} {fs : FS} {n : Nat} {run : Nat → App} (h : Run w Q fs n run) {k : Nat} {s : Slot} {info : Info}
    (hk : (run 0).proc.slots[k]? = some s) (hi : s.sys.torrent.info = some info) : ∃ f, f 0 = s ∧ View w run k info (wrappedCount info) f := by
  obtain ⟨f, f0, fk, fm⟩ := run_slots h hk
  have hmem : ∀ i, f i ∈ (run i).proc.slots := fun i => List.mem_of_getElem? (fk i)
  obtain ⟨c, hknown0⟩ := among_known (C84_among (run_asteps h 0) (f0 ▸ hmem 0)) hi
  have hknown : ∀ i, Known w info c (f i).sys := by
    intro i
    induction i with
    | zero => rw [f0]; exact hknown0
    | succ i ih => exact known_move ih (fm i) (run_asteps h (i + 1)) (hmem (i + 1))
  have hc : c = wrappedCount info := by
    have h1 := (C84_exact (run_asteps h 0) (f0 ▸ hmem 0) hi).length_eq
    have h2 := hknown0.perm.length_eq
    rw [h1, List.length_range, List.length_range] at h2
    exact h2.symm
  subst hc
  refine ⟨f, f0, fk, hknown, fun i => onwards_move (hknown i) (fm i), fun i j hij => run_later h hij (fk i) (fk j), fun i j hij hini => ?_⟩
  obtain ⟨d, rfl⟩ := Nat.exists_eq_add_of_le hij
  clear hij
  induction d with
  | zero => exact hini
  | succ d ih => exact initiated_move ih (fm (i + d))

theorem View.over_mono {w : World} {run : Nat → App} {k : Nat} {info : Info} {c : Nat} {f : Nat → Slot} (v : View w run k info c f) (p : Nat) {i j : Nat} (h : i ≤ j) :
    (over (f i).sys).count p ≤ (over (f j).sys).count p := by
  obtain ⟨d, rfl⟩ := Nat.exists_eq_add_of_le h
  clear h
  induction d with
  | zero => exact Nat.le_refl _
  | succ d ih => exact Nat.le_trans ih ((v.onwards (i + d)).grows p)

theorem View.workers_mono {w : World} {run : Nat → App} {k : Nat} {info : Info} {c : Nat} {f : Nat → Slot} (v : View w run k info c f) {i j : Nat} (h : i ≤ j) :
    (f j).sys.workers ≤ (f i).sys.workers := by
  obtain ⟨d, rfl⟩ := Nat.exists_eq_add_of_le h
  clear h
  induction d with
  | zero => exact Nat.le_refl _
  | succ d ih => exact Nat.le_trans (v.onwards (i + d)).fewer ih

theorem View.log_mono {w : World} {run : Nat → App} {k : Nat} {info : Info} {c : Nat} {f : Nat → Slot} (v : View w run k info c f) {i j : Nat} (h : i ≤ j) :
    (failedPieces (f i).sys.handled).length ≤ (failedPieces (f j).sys.handled).length := by
  obtain ⟨d, rfl⟩ := Nat.exists_eq_add_of_le h
  clear h
  induction d with
  | zero => exact Nat.le_refl _
  | succ d ih =>
    obtain ⟨l, hl⟩ := (v.onwards (i + d)).log
    refine Nat.le_trans ih ?_
    rw [← Nat.add_assoc, hl, failedPieces_append, List.length_append]
    omega

theorem clock_mono {clock : Nat → Nat} (h : ∀ i, clock i ≤ clock (i + 1)) {i j : Nat} (hij : i ≤ j) : clock i ≤ clock j := by
  obtain ⟨d, rfl⟩ := Nat.exists_eq_add_of_le hij
  clear hij
  induction d with
  | zero => exact Nat.le_refl _
  | succ d ih => exact Nat.le_trans ih (h (i + d))

/-- Either the first condition holds throughout, or it holds until the second takes over. -/
theorem phase {P Q : Nat → Prop} {i j : Nat} (hij : i ≤ j) (hP : P i) (hs : ∀ m, i ≤ m → m < j → P m → P (m + 1) ∨ Q (m + 1)) :
    (∀ m, i ≤ m → m ≤ j → P m) ∨ ∃ m, i ≤ m ∧ m < j ∧ (∀ x, i ≤ x → x ≤ m → P x) ∧ Q (m + 1) := by
  obtain ⟨d, rfl⟩ := Nat.exists_eq_add_of_le hij
  clear hij
  induction d with
  | zero =>
    left
    intro m h1 h2
    rwa [show m = i by omega]
  | succ d ih =>
    rcases ih (fun m h1 h2 => hs m h1 (by omega)) with h | ⟨m, h1, h2, h3, h4⟩
    · rcases hs (i + d) (by omega) (by omega) (h (i + d) (by omega) (by omega)) with e | e
      · left
        intro m h1 h2
        by_cases hm : m = i + d + 1
        · rwa [hm]
        · exact h m h1 (by omega)
      · exact .inr ⟨i + d, by omega, by omega, h, e⟩
    · exact .inr ⟨m, h1, by omega, h3, h4⟩

theorem idle_worker {w : World} {info : Info} {n : Nat} {s : Sys} (h : Known w info n s) {p : Nat} (hp : p ∈ s.queue.map Request.idx) : s.busy.length < s.workers := by
  have h5 := h.five
  have hw := h.workers
  have := List.length_pos_of_mem hp
  simp only [flight, List.length_append] at h5
  simp only [List.length_map] at h5 this
  omega

/-- A piece in flight does not stay there for long. -/
theorem flight_time {w : World} {run : Nat → App} {k : Nat} {info : Info} {c : Nat} {f : Nat → Slot} (v : View w run k info c f) {clock : Nat → Nat} {a d b : Nat}
    (ht : Timed run k clock a d b) {p i j : Nat} (hij : i ≤ j) (hp : p ∈ flight (f i).sys) (he : (over (f j).sys).count p = (over (f i).sys).count p) :
    clock (j + 1) ≤ clock i + (a + d + b) := by
  have hsame : ∀ x y, i ≤ x → x ≤ y → y ≤ j → (over (f x).sys).count p = (over (f y).sys).count p := by
    intro x y h1 h2 h3
    have := v.over_mono p h1
    have := v.over_mono p h2
    have := v.over_mono p h3
    omega
  have stage3 : ∀ x, i ≤ x → x ≤ j → p ∈ reports (f x).sys.mail → clock (j + 1) ≤ clock x + b := by
    intro x h1 h2 hm
    rcases phase (P := fun m => p ∈ reports (f m).sys.mail) (Q := fun _ => False) h2 hm (fun m h3 h4 h5 => by
      rcases (v.onwards m).mail p h5 with e | e
      · exact .inl e
      · have := hsame m (m + 1) (by omega) (by omega) (by omega)
        omega) with h | ⟨_, _, _, _, h⟩
    · exact ht.handles p x j h2 fun m h3 h4 => ⟨f m, v.at_ m, h m h3 h4, (v.known m).up⟩
    · exact h.elim
  have stage2 : ∀ x, i ≤ x → x ≤ j → p ∈ (f x).sys.busy.map Request.idx → clock (j + 1) ≤ clock x + (d + b) := by
    intro x h1 h2 hm
    rcases phase (P := fun m => p ∈ (f m).sys.busy.map Request.idx) (Q := fun m => p ∈ reports (f m).sys.mail) h2 hm (fun m h3 h4 h5 => by
      rcases (v.onwards m).busy p h5 with e | e | e
      · exact .inl e
      · exact .inr e
      · have := hsame m (m + 1) (by omega) (by omega) (by omega)
        omega) with h | ⟨m, h3, h4, h5, h6⟩
    · have := ht.ends p x j h2 fun m h3 h4 => ⟨f m, v.at_ m, h m h3 h4⟩
      omega
    · have := ht.ends p x m h3 fun m h3 h4 => ⟨f m, v.at_ m, h5 m h3 h4⟩
      have := stage3 (m + 1) (by omega) (by omega) h6
      omega
  rcases List.mem_append.mp hp with hp | hp
  · rcases List.mem_append.mp hp with hp | hp
    · rcases phase (P := fun m => p ∈ (f m).sys.queue.map Request.idx) (Q := fun m => p ∈ (f m).sys.busy.map Request.idx) hij hp
        (fun m h3 h4 h5 => (v.onwards m).queue p h5) with h | ⟨m, h3, h4, h5, h6⟩
      · have := ht.takes p i j hij fun m h3 h4 => ⟨f m, v.at_ m, h m h3 h4, idle_worker (v.known m) (h m h3 h4)⟩
        omega
      · have := ht.takes p i m h3 fun m h3 h4 => ⟨f m, v.at_ m, h5 m h3 h4, idle_worker (v.known m) (h5 m h3 h4)⟩
        have := stage2 (m + 1) (by omega) (by omega) h6
        omega
    · have := stage2 i (Nat.le_refl _) hij hp
      omega
  · have := stage3 i (Nat.le_refl _) hij hp
    omega

theorem flight_once {w : World} {info : Info} {n : Nat} {s : Sys} (h : Known w info n s) (p : Nat) : (flight s).count p ≤ 1 := by
  have := (List.perm_iff_count.mp h.perm) p
  have h1 := (List.nodup_range (n := n)).count (a := p)
  simp only [List.count_append] at this
  split at h1 <;> omega

theorem rate {w : World} {run : Nat → App} {k : Nat} {info : Info} {c : Nat} {f : Nat → Slot} (v : View w run k info c f) {clock : Nat → Nat} {a d b : Nat}
    (ht : Timed run k clock a d b) {i j : Nat} (hij : i ≤ j) (hc : clock i + (a + d + b) < clock (j + 1)) :
    (over (f i).sys).length + (flight (f i).sys).length ≤ (over (f j).sys).length := by
  rw [← List.length_append]
  refine length_le_of_count fun p => ?_
  rw [List.count_append]
  have h1 := v.over_mono p hij
  have h2 := flight_once (v.known i) p
  by_cases hp : p ∈ flight (f i).sys
  · by_cases he : (over (f j).sys).count p = (over (f i).sys).count p
    · have := flight_time v ht hij hp he
      omega
    · omega
  · rw [List.count_eq_zero.mpr hp]
    exact h1

theorem unfinished_eq {w : World} {info : Info} {n : Nat} {s : Sys} (h : Known w info n s) : unfinished s + (handed s).length + s.lost.length = n := by
  have := h.perm.length_eq
  simp only [List.length_append, List.length_range] at this
  simp only [unfinished]
  omega

theorem over_length (s : Sys) : (over s).length = (handed s).length + s.lost.length + (failedPieces s.handled).length := by
  simp only [over, List.length_append]

theorem View.unfinished_mono {w : World} {run : Nat → App} {k : Nat} {info : Info} {c : Nat} {f : Nat → Slot} (v : View w run k info c f) {i j : Nat} (h : i ≤ j) :
    unfinished (f j).sys ≤ unfinished (f i).sys := by
  have h1 := unfinished_eq (v.known i)
  have h2 := unfinished_eq (v.known j)
  obtain ⟨x, hx⟩ := (v.later i j h).ready
  obtain ⟨y, hy⟩ := (v.later i j h).lost
  have h3 : (handed (f i).sys).length ≤ (handed (f j).sys).length := by
    simp only [handed, hx, List.length_map, List.length_append]
    omega
  have h4 : (f i).sys.lost.length ≤ (f j).sys.lost.length := by
    rw [hy, List.length_append]
    omega
  omega

/-- The last state before a time. -/
theorem last_before {clock : Nat → Nat} {e j x : Nat} (hej : e ≤ j) (he : clock e ≤ x) (hj : x < clock (j + 1)) :
    ∃ m, e ≤ m ∧ m ≤ j ∧ clock m ≤ x ∧ x < clock (m + 1) := by
  obtain ⟨d, rfl⟩ := Nat.exists_eq_add_of_le hej
  clear hej
  induction d with
  | zero => exact ⟨e, Nat.le_refl _, Nat.le_refl _, he, hj⟩
  | succ d ih =>
    by_cases h : x < clock (e + d + 1)
    · obtain ⟨m, h1, h2, h3⟩ := ih h
      exact ⟨m, h1, by omega, h3⟩
    · exact ⟨e + d + 1, by omega, Nat.le_refl _, by omega, hj⟩

/-! ### C113 -/

/-- C113: while pieces of a torrent that has started are waiting, there is just one piece on its way for every worker that is left; there never are more. So a worker is
idle only while a request or a report is under way. -/
theorem C113_busy {w : World} {Q : Info → Prop} {fs : FS} {n : Nat} {A : App} (h : ASteps w Q (App.init fs n) A) {s : Slot} (hs : s ∈ A.proc.slots) {info : Info}
    (hi : s.sys.torrent.info = some info) : (flight s.sys).length ≤ s.sys.workers ∧
    (s.sys.torrent.initiated = true → waiting s.sys ≠ [] → (flight s.sys).length = s.sys.workers ∧
      (s.sys.queue = [] → reports s.sys.mail = [] → s.sys.busy.length = s.sys.workers)) := by
  obtain ⟨c, hk⟩ := among_known (C84_among h hs) hi
  have h5 := hk.five
  have hw := hk.workers
  refine ⟨by omega, fun h1 h2 => ?_⟩
  have := hk.full h1 h2
  refine ⟨by omega, fun h3 h4 => ?_⟩
  simp only [flight, h3, h4, List.map_nil, List.nil_append, List.append_nil, List.length_map] at this
  omega

/-- C113: in every run in which requests, downloads and reports take at most `a`, `d` and `b`, at least as many attempts come to an end within `a + d + b` as were under way. -/
theorem C113_rate {w : World} {Q : Info → Prop} {fs : FS} {n : Nat} {run : Nat → App} (h : Run w Q fs n run) {k : Nat} {clock : Nat → Nat} {a d b : Nat}
    (ht : Timed run k clock a d b) {s0 s t : Slot} {info : Info} (hk : (run 0).proc.slots[k]? = some s0) (hi : s0.sys.torrent.info = some info) {i j : Nat} (hij : i ≤ j)
    (hs : (run i).proc.slots[k]? = some s) (htj : (run j).proc.slots[k]? = some t) (hc : clock i + (a + d + b) < clock (j + 1)) :
    (over s.sys).length + (flight s.sys).length ≤ (over t.sys).length := by
  obtain ⟨f, -, v⟩ := run_view h hk hi
  have h1 := v.at_ i
  have h2 := v.at_ j
  rw [hs] at h1
  rw [htj] at h2
  cases h1
  cases h2
  exact rate v ht hij hc

/-- C113: a torrent that has started, with `R` pieces unfinished, is done with all its pieces after `⌈(R + F) / W⌉ + F` times the time one piece takes, if `F` downloads
fail on the way and `W` workers are left in the end. -/
theorem C113_time {w : World} {Q : Info → Prop} {fs : FS} {n : Nat} {run : Nat → App} (h : Run w Q fs n run) {k : Nat} {clock : Nat → Nat} {a d b : Nat}
    (ht : Timed run k clock a d b) {s t : Slot} {info : Info} (hk : (run 0).proc.slots[k]? = some s) (hi : s.sys.torrent.info = some info)
    (hini : s.sys.torrent.initiated = true) {j W F : Nat} (htj : (run j).proc.slots[k]? = some t) (hW : W ≤ t.sys.workers) (hpos : 0 < W)
    (hF : (failedPieces t.sys.handled).length ≤ (failedPieces s.sys.handled).length + F)
    (hc : clock 0 + ((unfinished s.sys + F + W - 1) / W + F) * (a + d + b) < clock (j + 1)) :
    unfinished t.sys = 0 ∧ (handed t.sys ++ t.sys.lost).Perm (List.range (wrappedCount info)) := by
  obtain ⟨f, f0, v⟩ := run_view h hk hi
  have h2 := v.at_ j
  rw [htj] at h2
  cases h2
  subst f0
  have main : ∀ m, clock 0 + m * (a + d + b) < clock (j + 1) → ∃ e, e ≤ j ∧ clock e ≤ clock 0 + m * (a + d + b) ∧
      (unfinished (f e).sys = 0 ∨ ∃ x y, x + y = m ∧ W * x + (over (f 0).sys).length ≤ (over (f e).sys).length ∧
        y + (failedPieces (f 0).sys.handled).length ≤ (failedPieces (f e).sys.handled).length) := by
    intro m
    induction m with
    | zero => exact fun _ => ⟨0, Nat.zero_le _, by omega, .inr ⟨0, 0, rfl, by omega, by omega⟩⟩
    | succ m ih =>
      intro hm
      rw [Nat.succ_mul] at hm ⊢
      obtain ⟨e, e1, e2, e3⟩ := ih (by omega)
      obtain ⟨e', g1, g2, g3, g4⟩ := last_before (clock := clock) (x := clock 0 + (m * (a + d + b) + (a + d + b))) e1 (by omega) (by omega)
      refine ⟨e', g2, g3, ?_⟩
      rcases e3 with e3 | ⟨x, y, hxy, hx, hy⟩
      · left
        have := v.unfinished_mono g1
        omega
      · have hr := rate v ht g1 (by omega)
        have hlog := v.log_mono g1
        by_cases hw : waiting (f e).sys = []
        · have h1 := unfinished_eq (v.known e)
          have h2 := unfinished_eq (v.known e')
          rw [over_length, over_length] at hr
          have h3 : unfinished (f e).sys = (flight (f e).sys).length := by simp [unfinished, hw]
          by_cases hl : (failedPieces (f e').sys.handled).length = (failedPieces (f e).sys.handled).length
          · left
            omega
          · refine .inr ⟨x, y + 1, by omega, ?_, by omega⟩
            rw [over_length (f e').sys]
            rw [over_length (f e).sys] at hx
            omega
        · have h1 := (v.known e).full (v.begun 0 e (Nat.zero_le _) hini) hw
          have h2 := (v.known e).workers
          have h3 := v.workers_mono e1
          refine .inr ⟨x + 1, y, by omega, ?_, by omega⟩
          rw [Nat.mul_succ]
          omega
  have hdone : unfinished (f j).sys = 0 := by
    obtain ⟨e, e1, e2, e3⟩ := main _ hc
    have hmono := v.unfinished_mono e1
    rcases e3 with e3 | ⟨x, y, hxy, hx, hy⟩
    · omega
    · have hl := v.log_mono e1
      have h1 := unfinished_eq (v.known 0)
      have h2 := unfinished_eq (v.known e)
      rw [over_length, over_length] at hx
      have hy' : y ≤ F := by omega
      have hx' : (unfinished (f 0).sys + F + W - 1) / W ≤ x := by omega
      have := Nat.div_add_mod (unfinished (f 0).sys + F + W - 1) W
      have := Nat.mod_lt (unfinished (f 0).sys + F + W - 1) hpos
      have := Nat.mul_le_mul_left W hx'
      omega
  refine ⟨hdone, ?_⟩
  have hp := (v.known j).perm
  simp only [unfinished, Nat.add_eq_zero_iff, List.length_eq_zero_iff] at hdone
  rw [hdone.1, hdone.2] at hp
  simpa using hp

/-! ### No faster than this -/

theorem rise {P : Nat → Prop} {i m : Nat} (him : i ≤ m) (hi : ¬ P i) (hm : P m) : ∃ x, i ≤ x ∧ x < m ∧ ¬ P x ∧ ∀ y, x + 1 ≤ y → y ≤ m → P y := by
  obtain ⟨d, rfl⟩ := Nat.exists_eq_add_of_le him
  clear him
  induction d with
  | zero => exact absurd hm hi
  | succ d ih =>
    by_cases h : P (i + d)
    · obtain ⟨x, h1, h2, h3, h4⟩ := ih h
      refine ⟨x, h1, by omega, h3, fun y h5 h6 => ?_⟩
      by_cases hy : y = i + (d + 1)
      · rwa [hy]
      · exact h4 y h5 (by omega)
    · refine ⟨i + d, by omega, by omega, h, fun y h5 h6 => ?_⟩
      rwa [show y = i + (d + 1) by omega]

theorem slow_piece {w : World} {run : Nat → App} {k : Nat} {info : Info} {c : Nat} {f : Nat → Slot} (v : View w run k info c f) {clock : Nat → Nat} {d : Nat}
    (hs : Slow run k clock d) {p i j : Nat} (hij : i ≤ j) (h1 : p ∉ downloaded (f i).sys) (h2 : p ∉ (f i).sys.busy.map Request.idx) (h3 : p ∈ downloaded (f j).sys) :
    clock (i + 1) + d ≤ clock j := by
  rcases phase (P := fun m => p ∉ downloaded (f m).sys) (Q := fun m => p ∈ downloaded (f m).sys) hij h1 (fun m _ _ _ => (Classical.em _).symm) with h | ⟨m, g1, g2, g3, g4⟩
  · exact absurd h3 (h j hij (Nat.le_refl _))
  · have hb : p ∈ (f m).sys.busy.map Request.idx := ((v.onwards m).made p g4).resolve_left (g3 m g1 (Nat.le_refl _))
    obtain ⟨x, x1, x2, x3, x4⟩ := rise (P := fun m => p ∈ (f m).sys.busy.map Request.idx) g1 h2 hb
    have := hs.least p x m _ _ _ x2 (v.at_ x) x3 (fun y h5 h6 => ⟨f y, v.at_ y, x4 y h5 h6⟩) (v.at_ m) (g3 m g1 (Nat.le_refl _)) (v.at_ (m + 1)) g4
    have := clock_mono hs.mono (show i + 1 ≤ x + 1 by omega)
    have := clock_mono hs.mono (show m + 1 ≤ j by omega)
    omega

theorem downloaded_once {w : World} {info : Info} {n : Nat} {s : Sys} (h : Known w info n s) (p : Nat) : (downloaded s).count p ≤ 1 := by
  have := (List.perm_iff_count.mp h.perm) p
  have h1 := (List.nodup_range (n := n)).count (a := p)
  have h2 : (succeeded s.mail).count p ≤ (reports s.mail).count p := by
    clear this h1
    generalize s.mail = l
    induction l with
    | nil => exact Nat.le_refl _
    | cons m l ih =>
      cases m with
      | found q => exact ih
      | success e pc i =>
        show (i :: succeeded l).count p ≤ (i :: reports l).count p
        rw [List.count_cons, List.count_cons]
        omega
      | failed e i =>
        show (succeeded l).count p ≤ (i :: reports l).count p
        rw [List.count_cons]
        omega
  simp only [flight, List.count_append] at this
  rw [downloaded_eq, List.count_append]
  split at h1 <;> omega

/-- C113: a torrent is never downloaded faster, however many peers it knows: if every download takes at least `d`, then at most `m` times as many pieces as there are workers
are downloaded within `m` times `d`. -/
theorem C113_least {w : World} {Q : Info → Prop} {fs : FS} {n : Nat} {run : Nat → App} (h : Run w Q fs n run) {k : Nat} {clock : Nat → Nat} {d : Nat}
    (hs : Slow run k clock d) {s t : Slot} {info : Info} (hk : (run 0).proc.slots[k]? = some s) (hi : s.sys.torrent.info = some info) {j m : Nat}
    (htj : (run j).proc.slots[k]? = some t) (hc : clock j < clock 1 + m * d) :
    (downloaded t.sys).length ≤ (downloaded s.sys).length + s.sys.workers * m := by
  obtain ⟨f, f0, v⟩ := run_view h hk hi
  have h2 := v.at_ j
  rw [htj] at h2
  cases h2
  subst f0
  clear htj
  induction m generalizing j with
  | zero =>
    cases j with
    | zero => omega
    | succ j =>
      have := clock_mono hs.mono (show 1 ≤ j + 1 by omega)
      omega
  | succ m ih =>
    rw [Nat.succ_mul] at hc
    rw [Nat.mul_succ]
    by_cases hj : clock j < clock 1 + m * d
    · have := ih hj
      omega
    · -- the last state before the last stretch
      have he : ∃ e, e ≤ j ∧ (downloaded (f e).sys).length ≤ (downloaded (f 0).sys).length + (f 0).sys.workers * m ∧ clock 1 + m * d ≤ clock (e + 1) := by
        by_cases h1 : clock 0 < clock 1 + m * d
        · have : ∃ e, 0 ≤ e ∧ e ≤ j ∧ clock e < clock 1 + m * d ∧ clock 1 + m * d ≤ clock (e + 1) := by
            obtain ⟨y, hy⟩ : ∃ y, clock 1 + m * d = y + 1 := ⟨clock 1 + m * d - 1, by omega⟩
            rcases Nat.eq_zero_or_pos j with rfl | hpos
            · omega
            · obtain ⟨e, e1, e2, e3, e4⟩ := last_before (clock := clock) (e := 0) (j := j - 1) (x := y) (Nat.zero_le _) (by omega)
                (by rw [Nat.sub_add_cancel hpos]; omega)
              exact ⟨e, e1, by omega, by omega, by omega⟩
          obtain ⟨e, -, e1, e2, e3⟩ := this
          exact ⟨e, e1, ih e2, e3⟩
        · have := hs.mono 0
          refine ⟨0, Nat.zero_le _, by omega, by omega⟩
      obtain ⟨e, e1, e2, e3⟩ := he
      have hle : (downloaded (f j).sys).length ≤ (downloaded (f e).sys ++ (f e).sys.busy.map Request.idx).length := by
        refine length_le_of_count fun p => ?_
        by_cases hp : p ∈ downloaded (f j).sys
        · have h1 := downloaded_once (v.known j) p
          have : 0 < (downloaded (f e).sys ++ (f e).sys.busy.map Request.idx).count p := by
            rw [List.count_pos_iff]
            refine Classical.byContradiction fun hn => ?_
            rw [List.mem_append] at hn
            have := slow_piece v hs e1 (fun x => hn (.inl x)) (fun x => hn (.inr x)) hp
            omega
          omega
        · rw [List.count_eq_zero.mpr hp]
          exact Nat.zero_le _
      rw [List.length_append, List.length_map] at hle
      have := (v.known e).busy
      have := v.workers_mono (Nat.zero_le e)
      omega

/-! ### Runs of this kind -/

/-- When a torrent starts all its pieces are unfinished, unless a worker dies. -/
theorem View.starting {w : World} {run : Nat → App} {k : Nat} {info : Info} {c : Nat} {f : Nat → Slot} (v : View w run k info c f) {i : Nat}
    (h0 : (f i).sys.torrent.initiated = false) (hl : (f (i + 1)).sys.lost = []) : unfinished (f (i + 1)).sys = c := by
  obtain ⟨h1, h2, h3, h4⟩ := (v.known i).idle h0
  simp only [flight, List.append_eq_nil_iff] at h1
  have hd : ∀ p, p ∉ downloaded (f i).sys := by
    intro p hp
    have hc := downloaded_once (v.known i) p
    rw [downloaded_eq, h2, List.nil_append] at hp
    obtain ⟨m, hm, he⟩ := List.mem_filterMap.mp hp
    have : p ∈ reports (f i).sys.mail := by
      refine List.mem_filterMap.mpr ⟨m, hm, ?_⟩
      cases m <;> simp_all
    rw [h1.2] at this
    cases this
  have hn : handed (f (i + 1)).sys = [] := by
    refine List.eq_nil_iff_forall_not_mem.mpr fun p hp => ?_
    rcases (v.onwards i).made p (by rw [downloaded_eq]; exact List.mem_append_left _ hp) with e | e
    · exact hd p e
    · rw [h1.1.2] at e; cases e
  have := unfinished_eq (v.known (i + 1))
  rw [hn, hl] at this
  simpa using this

/-- In a run that comes to rest nothing takes longer than it takes to get there. -/
theorem rest_timed {run : Nat → App} {k g : Nat} (hr : ∀ j, g ≤ j → ∃ t, (run j).proc.slots[k]? = some t ∧ t.sys.mail = [] ∧ t.sys.queue = [] ∧ t.sys.busy = []) :
    Timed run k (fun i => i) g g g := by
  have key : ∀ {P : Sys → Prop} {i j : Nat}, i ≤ j → Throughout run k P i j → (∀ s : Sys, s.mail = [] → s.queue = [] → s.busy = [] → ¬ P s) → j + 1 ≤ i + g := by
    intro P i j hij h hP
    by_cases hj : j < g
    · omega
    · obtain ⟨t, h1, h2, h3, h4⟩ := hr j (by omega)
      obtain ⟨t', h5, h6⟩ := h j hij (Nat.le_refl _)
      rw [h1] at h5
      cases h5
      exact absurd h6 (hP _ h2 h3 h4)
  refine ⟨fun i => Nat.le_succ i, fun p i j hij h => key hij h fun s h1 h2 h3 hp => ?_, fun p i j hij h => key hij h fun s h1 h2 h3 hp => ?_,
    fun p i j hij h => key hij h fun s h1 h2 h3 hp => ?_⟩
  · rw [h2] at hp; cases hp.1
  · rw [h3] at hp; cases hp
  · rw [h1] at hp; cases hp.1

/-- With one tick for every step no download takes less than one. -/
theorem tick_slow (run : Nat → App) (k : Nat) : Slow run k (fun i => i) 1 :=
  ⟨fun i => Nat.le_succ i, fun p i j s t u hij _ _ _ _ _ _ _ => by show i + 1 + 1 ≤ j + 1; omega⟩

/-- C113_busy, C113_rate, C113_time and C113_least: in every world there is a run in which a torrent of three bytes has just started, nothing takes for ever, nothing fails and
no worker dies. -/
example (w : World) (hsha : ∀ b, (w.sha b).length = 20) : ∃ run g s, Run w (Beside (threeBytes w.sha)) (fun _ => none) 1 run ∧ Timed run 0 (fun i => i) g g g ∧
    Slow run 0 (fun i => i) 1 ∧ (run 0).proc.slots[0]? = some s ∧ s.sys.torrent.info = some (threeBytes w.sha) ∧ s.sys.torrent.initiated = true ∧ unfinished s.sys = 2 ∧
    ∀ i t, (run i).proc.slots[0]? = some t → t.sys.workers = 5 ∧ failedPieces t.sys.handled = [] := by
  obtain ⟨L, hL, hall⟩ := three_request w hsha
  obtain ⟨run, h1, h2, h3, h4, h5, h6, h7⟩ := hall 0 (by omega)
  have hpos : 0 < wrappedCount (threeBytes w.sha) := by simp [wrappedCount, threeBytes]
  obtain ⟨l, a, hstart⟩ := C112_starts h1 h2 h4 h5 hpos
  obtain ⟨s0, s1, hs0, hn0, hs1, hi1, hp1⟩ := id h5
  obtain ⟨f, f0, v⟩ := run_view (run := fun j => run (0 + 1 + j)) (k := 0) (s := s1) (Run.shift h1 (0 + 1)) hs1 hi1
  have hini0 : ¬ (f 0).sys.torrent.initiated = true := by
    rw [f0, C112_started h1 h5 hpos (j := 0 + 1) (by omega) hs1]
    omega
  have hinia : (f a).sys.torrent.initiated = true := by
    obtain ⟨t, t1, t2, t3, t4⟩ := hstart (0 + 1 + a) (by omega)
    have := v.at_ a
    rw [t1] at this
    cases this
    rw [t4, ← t3]
    have := (h7 _ _ t1).1
    omega
  obtain ⟨x, -, -, x1, x2⟩ := rise (P := fun m => (f m).sys.torrent.initiated = true) (Nat.zero_le a) hini0 hinia
  have hx := x2 (x + 1) (Nat.le_refl _) (by
    refine Classical.byContradiction fun hn => ?_
    have : a ≤ x := by omega
    exact x1 (v.begun a x this hinia))
  have hlost : ∀ i, (f i).sys.lost = [] := fun i => (h7 _ _ (v.at_ i)).2.2
  have hun := v.starting (Bool.eq_false_iff.mpr x1) (hlost (x + 1))
  have hRx : Run w (Beside (threeBytes w.sha)) (fun _ => none) 1 (fun j => run (0 + 1 + (x + 1) + j)) := Run.shift h1 (0 + 1 + (x + 1))
  obtain ⟨g, hg⟩ := comes_to_rest hRx (k := 0) (Fair.shift h2 _) (fun i => h4 _) (s := f (x + 1)) (v.at_ (x + 1)) (v.known (x + 1)).hasInfo (B := 0)
    (fun i t ht => Nat.le_of_eq (h7 _ _ ht).2.1)
  refine ⟨fun j => run (0 + 1 + (x + 1) + j), g, f (x + 1), hRx, rest_timed fun j hj => ?_, tick_slow _ _, v.at_ (x + 1), (v.known (x + 1)).hasInfo, hx, ?_, fun i t ht => ?_⟩
  · obtain ⟨t, g1, g2, g3, g4, g5, g6, g7⟩ := hg j hj
    exact ⟨t, g1, g4, g5, g6⟩
  · rw [hun]; simp [wrappedCount, threeBytes]
  · have hv := v.at_ (x + 1 + i)
    rw [← Nat.add_assoc] at hv
    rw [ht] at hv
    cases hv
    have hw := (v.known (x + 1 + i)).workers
    rw [hlost] at hw
    refine ⟨by simpa using hw, ?_⟩
    have hf := (h7 _ _ ht).2.1
    simp only [downloadsFailed, List.countP_append, Nat.add_eq_zero_iff, List.countP_eq_zero] at hf
    rw [failedPieces, List.filterMap_eq_nil_iff]
    intro m hm
    have := hf.1 m hm
    cases m <;> simp_all

end RustBit
