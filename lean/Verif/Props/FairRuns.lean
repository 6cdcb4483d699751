/-
C111: there are fair runs from every state, some of them without losses.
-/
import Verif.Props.Fair
import Verif.Props.Torrents
import Verif.Props.Finish

namespace RustBit
open Spec

/-! ### What happened stays -/

/-- What comes after in the life of a torrent. -/
structure Later (s t : Sys) : Prop where
  mail : ∃ a, t.handled ++ t.mail = s.handled ++ s.mail ++ a
  ready : ∃ b, t.written ++ t.ready = s.written ++ s.ready ++ b
  up : ∃ c, t.written = s.written ++ c ∧ (c = [] → t.writerUp = s.writerUp)
  lost : ∃ l, t.lost = s.lost ++ l

theorem Later.refl (s : Sys) : Later s s := ⟨⟨[], by simp⟩, ⟨[], by simp⟩, ⟨[], by simp⟩, ⟨[], by simp⟩⟩

theorem Later.trans {s t u : Sys} (h1 : Later s t) (h2 : Later t u) : Later s u := by
  obtain ⟨⟨a, ha⟩, ⟨b, hb⟩, ⟨c, hc, hu⟩, l, hl⟩ := h1
  obtain ⟨⟨a', ha'⟩, ⟨b', hb'⟩, ⟨c', hc', hu'⟩, l', hl'⟩ := h2
  refine ⟨⟨a ++ a', by rw [ha', ha, List.append_assoc]⟩, ⟨b ++ b', by rw [hb', hb, List.append_assoc]⟩, ⟨c ++ c', by rw [hc', hc, List.append_assoc], ?_⟩,
    l ++ l', by rw [hl', hl, List.append_assoc]⟩
  intro h
  obtain ⟨rfl, rfl⟩ := List.append_eq_nil_iff.mp h
  rw [hu' rfl, hu rfl]

theorem later_step {w : World} {s t : Sys} (h : Step w s t) (hw : t.written = s.written) : Later s t := by
  have same : t.writerUp = s.writerUp → ∃ c, t.written = s.written ++ c ∧ (c = [] → t.writerUp = s.writerUp) := fun e => ⟨[], by simpa using hw, fun _ => e⟩
  cases h with
  | announce bytes p hp => exact ⟨⟨[.found p], by simp⟩, ⟨[], by simp⟩, same rfl, [], by simp⟩
  | take => exact ⟨⟨[], by simp⟩, ⟨[], by simp⟩, same rfl, [], by simp⟩
  | finishOk => exact ⟨⟨_, (List.append_assoc ..).symm⟩, ⟨[], by simp⟩, same rfl, [], by simp⟩
  | finishErr => exact ⟨⟨_, (List.append_assoc ..).symm⟩, ⟨[], by simp⟩, same rfl, [], by simp⟩
  | finishPanic => exact ⟨⟨[], by simp⟩, ⟨[], by simp⟩, same rfl, _, rfl⟩
  | success e pc i rest hd hm => exact ⟨⟨[], by simp [Sys.after, hm]⟩, ⟨_, (List.append_assoc ..).symm⟩, same rfl, [], by simp [Sys.after]⟩
  | failed e i rest hd hm => exact ⟨⟨[], by simp [Sys.after, hm]⟩, ⟨_, (List.append_assoc ..).symm⟩, same rfl, [], by simp [Sys.after]⟩
  | collect p rest hd hm => exact ⟨⟨[], by simp [Sys.after, hm]⟩, ⟨_, (List.append_assoc ..).symm⟩, same rfl, [], by simp [Sys.after]⟩
  | found p rest hd hm => exact ⟨⟨[], by simp [Sys.after, hm]⟩, ⟨_, (List.append_assoc ..).symm⟩, same rfl, [], by simp [Sys.after]⟩
  | write r ready hu hr res fs h =>
    have := congrArg List.length hw
    simp at this

theorem later_move {w : World} {s t : Slot} (h : Move w s t) : Later s.sys t.sys := by
  cases h with
  | still _ fs e => rw [e]; exact ⟨⟨[], by simp⟩, ⟨[], by simp⟩, ⟨[], by simp⟩, ⟨[], by simp⟩⟩
  | act _ fs hst hw =>
    have := later_step hst hw
    exact ⟨this.mail, this.ready, this.up, this.lost⟩
  | told _ fs p e =>
    rw [e]
    exact ⟨⟨[.found p], by simp⟩, ⟨[], by simp⟩, ⟨[], by simp⟩, ⟨[], by simp⟩⟩
  | begin ws hp e => rw [e]; exact .refl _
  | part x xs hp e => rw [e]; exact .refl _
  | done r ready up hr e =>
    rw [e]
    exact ⟨⟨[], by simp [Slot.done]⟩, ⟨[], by simp [Slot.done, hr]⟩, ⟨[r], rfl, fun e => by cases e⟩, ⟨[], by simp [Slot.done]⟩⟩

theorem Later.failed {s t : Sys} (h : Later s t) : downloadsFailed s ≤ downloadsFailed t := by
  obtain ⟨a, ha⟩ := h.mail
  simp only [downloadsFailed, ha, List.countP_append]
  omega

theorem append_between {α : Type} {a b : List α} {x y : List α} (h1 : b = a ++ x) (h2 : a = b ++ y) : b = a := by
  have := congrArg List.length h2
  rw [h1] at this
  simp only [List.length_append] at this
  rw [h1, List.length_eq_zero_iff.mp (show x.length = 0 by omega), List.append_nil]

/-- What is the same in the end was the same all along. -/
theorem Later.between {s t u : Sys} (h1 : Later s t) (h2 : Later t u) : (downloadsFailed u = downloadsFailed s → downloadsFailed t = downloadsFailed s) ∧
    (u.lost = s.lost → t.lost = s.lost) ∧ (handed u = handed s → handed t = handed s) := by
  refine ⟨fun e => ?_, fun e => ?_, fun e => ?_⟩
  · have := h1.failed
    have := h2.failed
    omega
  · obtain ⟨x, hx⟩ := h1.lost
    obtain ⟨y, hy⟩ := h2.lost
    exact append_between hx (e ▸ hy)
  · obtain ⟨x, hx⟩ := h1.ready
    obtain ⟨y, hy⟩ := h2.ready
    rw [handed, handed] at e ⊢
    rw [hy, List.map_append] at e
    exact append_between (x := x.map Ready.idx) (by rw [hx, List.map_append]) e.symm

theorem Run.shift {w : World} {Q : Info → Prop} {fs : FS} {n : Nat} {run : Nat → App} (h : Run w Q fs n run) (i : Nat) : Run w Q fs n (fun j => run (i + j)) :=
  ⟨run_asteps h i, fun j => h.on (i + j), fun j => h.step (i + j), fun j => h.infos (i + j)⟩

theorem run_later {w : World} {Q : Info → Prop} {fs : FS} {n : Nat} {run : Nat → App} (h : Run w Q fs n run) {i j k : Nat} (hij : i ≤ j) {s t : Slot}
    (hs : (run i).proc.slots[k]? = some s) (ht : (run j).proc.slots[k]? = some t) : Later s.sys t.sys := by
  obtain ⟨f, f0, fk, fm⟩ := run_slots (Run.shift h i) (k := k) (s := s) hs
  obtain ⟨d, rfl⟩ := Nat.exists_eq_add_of_le hij
  have hd : ∀ d, Later s.sys (f d).sys := by
    intro d
    induction d with
    | zero => rw [f0]; exact .refl _
    | succ d ih => exact ih.trans (later_move (fm d))
  have := fk d
  rw [ht] at this
  rw [Option.some.inj this]
  exact hd d

/-- The metadata of a torrent stays. -/
theorem run_info {w : World} {Q : Info → Prop} {fs : FS} {n : Nat} {run : Nat → App} (h : Run w Q fs n run) {k : Nat} {s t : Slot} {info : Info}
    (hs : (run 0).proc.slots[k]? = some s) (hi : s.sys.torrent.info = some info) {j : Nat} (ht : (run j).proc.slots[k]? = some t) :
    t.sys.torrent.info = some info := by
  obtain ⟨f, f0, fk, fm⟩ := run_slots h hs
  have hmem : ∀ i, f i ∈ (run i).proc.slots := fun i => List.mem_of_getElem? (fk i)
  obtain ⟨c, h0⟩ := among_known (C84_among (run_asteps h 0) (f0 ▸ hmem 0)) hi
  have hknown : ∀ i, Known w info c (f i).sys := by
    intro i
    induction i with
    | zero => rw [f0]; exact h0
    | succ i ih => exact known_move ih (fm i) (run_asteps h (i + 1)) (hmem (i + 1))
  have := fk j
  rw [ht] at this
  rw [Option.some.inj this]
  exact (hknown j).hasInfo

/-- Nothing is waiting for the torrent, its workers or its writer. -/
structure AtRest (s : Sys) : Prop where
  mail : s.mail = []
  queue : s.queue = []
  busy : s.busy = []
  ready : s.writerUp = true → s.ready = []

/-- A run that comes to rest is fair. -/
theorem rest_fair {w : World} {Q : Info → Prop} {fs : FS} {n : Nat} {run : Nat → App} (h : Run w Q fs n run) {k m : Nat}
    (hr : ∀ j, m ≤ j → ∃ t, (run j).proc.slots[k]? = some t ∧ AtRest t.sys) : Fair run k := by
  have late : ∀ i s, (run i).proc.slots[k]? = some s → ∃ t, (run (i + m)).proc.slots[k]? = some t ∧ AtRest t.sys ∧ Later s.sys t.sys := by
    intro i s hs
    obtain ⟨t, h1, h2⟩ := hr (i + m) (by omega)
    exact ⟨t, h1, h2, run_later h (by omega) hs h1⟩
  refine ⟨fun i s hs hne _ _ => ?_, fun i s hs hne _ => ?_, fun i s hs hne => ?_, fun i s hs hup hne => ?_⟩
  · obtain ⟨t, h1, h2, h3⟩ := late i s hs
    refine ⟨_, t, Nat.le_add_right i m, h1, fun e => hne ?_⟩
    obtain ⟨a, ha⟩ := h3.mail
    rw [h2.mail, e, List.append_nil, List.append_assoc] at ha
    exact (List.append_eq_nil_iff.mp (List.self_eq_append_right.mp ha)).1
  · obtain ⟨t, h1, h2, h3⟩ := late i s hs
    exact ⟨_, t, Nat.le_add_right i m, h1, fun e => hne (e ▸ h2.queue)⟩
  · obtain ⟨t, h1, h2, h3⟩ := late i s hs
    exact ⟨_, t, Nat.le_add_right i m, h1, fun e => hne (e ▸ h2.busy)⟩
  · obtain ⟨t, h1, h2, h3⟩ := late i s hs
    refine ⟨_, t, Nat.le_add_right i m, h1, .inr fun e => hne ?_⟩
    obtain ⟨c, hc, hu⟩ := h3.up
    have hcn : c = [] := by
      rw [e] at hc
      exact List.self_eq_append_right.mp hc
    obtain ⟨b, hb⟩ := h3.ready
    rw [h2.ready ((hu hcn).trans hup), e, List.append_nil, List.append_assoc] at hb
    exact (List.append_eq_nil_iff.mp (List.self_eq_append_right.mp hb)).1

/-! ### Going on for ever -/

/-- The next state if only an empty line is logged. -/
def logNothing (cwd : Loc) (A : App) : App :=
  { A with proc := { A.proc with fs := A.proc.fs.writeAt (cwd ++ logPath.comps) (A.proc.log.getD 0) [], log := some (A.proc.log.getD 0 + 0), said := A.proc.said ++ [[]] } }

theorem logNothing_step {w : World} {A : App} (h : A.proc.log ≠ none) : AStep w A (logNothing w.cwd A) := by
  cases hl : A.proc.log with
  | none => exact absurd hl h
  | some n =>
    have st := PStep.log (w := w) A.proc n hl []
    have := AStep.work A h _ st (by simp) rfl (fun k s s' h1 h2 => by
      rw [h1] at h2
      cases h2
      exact ⟨rfl, fun h => absurd rfl h⟩)
    simpa [logNothing, hl] using this

/-- The program logs empty lines for ever. -/
def idling (cwd : Loc) (B : App) : Nat → App
  | 0 => B
  | i + 1 => logNothing cwd (idling cwd B i)

theorem idling_same (cwd : Loc) (B : App) (h : B.proc.log ≠ none) : ∀ i, (idling cwd B i).proc.slots = B.proc.slots ∧ (idling cwd B i).home = B.home ∧
    (idling cwd B i).stuck = B.stuck ∧ (idling cwd B i).proc.log ≠ none ∧ (idling cwd B i).trackers = B.trackers ∧ (idling cwd B i).delivered = B.delivered := by
  intro i
  induction i with
  | zero => exact ⟨rfl, rfl, rfl, h, rfl, rfl⟩
  | succ i ih => exact ⟨ih.1, ih.2.1, ih.2.2.1, by simp [idling, logNothing], ih.2.2.2.2⟩

/-- A path, state by state. -/
theorem path {w : World} {Q : Info → Prop} {A B : App} (h : OnSteps w Q A B) (hA : A.proc.log ≠ none) (hQ : ∀ s ∈ A.proc.slots, ∀ i, s.sys.torrent.info = some i → Q i) :
    ∃ (f : Nat → App) (m : Nat), f 0 = A ∧ (∀ i, m ≤ i → f i = B) ∧ (∀ i, i < m → AStep w (f i) (f (i + 1))) ∧
      ∀ i, (f i).proc.log ≠ none ∧ ∀ s ∈ (f i).proc.slots, ∀ x, s.sys.torrent.info = some x → Q x := by
  induction h with
  | refl => exact ⟨fun _ => A, 0, rfl, fun _ _ => rfl, fun i hi => by omega, fun _ => ⟨hA, hQ⟩⟩
  | @tail B C h hs hq hl ih =>
    obtain ⟨f, m, h1, h2, h3, h4⟩ := ih
    refine ⟨fun i => if i ≤ m then f i else C, m + 1, by simp [h1], fun i hi => ?_, fun i hi => ?_, fun i => ?_⟩
    · show (if i ≤ m then f i else C) = C
      rw [if_neg (by omega)]
    · show AStep w (if i ≤ m then f i else C) (if i + 1 ≤ m then f (i + 1) else C)
      by_cases hi' : i = m
      · subst hi'
        rw [if_pos (Nat.le_refl _), if_neg (by omega), h2 i (Nat.le_refl _)]
        exact hs
      · rw [if_pos (by omega), if_pos (by omega)]
        exact h3 i (by omega)
    · show (if i ≤ m then f i else C).proc.log ≠ none ∧ ∀ s ∈ (if i ≤ m then f i else C).proc.slots, _
      split
      · exact h4 i
      · exact ⟨hl, hq⟩

/-- A path can be followed by a run in which nothing happens any more. -/
theorem forever {w : World} {Q : Info → Prop} {fs : FS} {n : Nat} {A B : App} (hA : ASteps w Q (App.init fs n) A) (hl : A.proc.log ≠ none) (h : OnSteps w Q A B) :
    ∃ (run : Nat → App) (m : Nat), Run w Q fs n run ∧ run 0 = A ∧
      ∀ i, m ≤ i → (run i).proc.slots = B.proc.slots ∧ (run i).home = B.home ∧ (run i).stuck = B.stuck ∧ (run i).trackers = B.trackers ∧
        (run i).delivered = B.delivered := by
  have hQA := holds_steps hA (fun x hx => by cases hx)
  obtain ⟨f, m, h1, h2, h3, h4⟩ := path h hl hQA
  have hB : B.proc.log ≠ none := by rw [← h2 m (Nat.le_refl _)]; exact (h4 m).1
  have hQB : ∀ s ∈ B.proc.slots, ∀ x, s.sys.torrent.info = some x → Q x := by rw [← h2 m (Nat.le_refl _)]; exact (h4 m).2
  have hsame := idling_same w.cwd B hB
  refine ⟨fun i => if i < m then f i else idling w.cwd B (i - m), m, ⟨?_, fun i => ?_, fun i => ?_, fun i => ?_⟩, ?_, fun i hi => ?_⟩
  · show ASteps w Q (App.init fs n) (if 0 < m then f 0 else idling w.cwd B (0 - m))
    split
    · rw [h1]; exact hA
    · have : B = A := by rw [← h1, h2 0 (by omega)]
      rw [Nat.zero_sub, this]
      exact hA
  · show (if i < m then f i else idling w.cwd B (i - m)).proc.log ≠ none
    split
    · exact (h4 i).1
    · exact (hsame _).2.2.2.1
  · show AStep w (if i < m then f i else idling w.cwd B (i - m)) (if i + 1 < m then f (i + 1) else idling w.cwd B (i + 1 - m))
    by_cases hi : i < m
    · rw [if_pos hi]
      have := h3 i hi
      split
      · exact this
      · rw [h2 (i + 1) (by omega)] at this
        rw [show i + 1 - m = 0 by omega]
        exact this
    · rw [if_neg hi, if_neg (by omega), show i + 1 - m = i - m + 1 by omega]
      exact logNothing_step (hsame _).2.2.2.1
  · show ∀ s ∈ (if i < m then f i else idling w.cwd B (i - m)).proc.slots, _
    split
    · exact (h4 i).2
    · rw [(hsame _).1]
      exact hQB
  · show (if 0 < m then f 0 else idling w.cwd B (0 - m)) = A
    split
    · exact h1
    · rw [Nat.zero_sub, ← h1, h2 0 (by omega)]
      rfl
  · have e : (if i < m then f i else idling w.cwd B (i - m)) = idling w.cwd B (i - m) := if_neg (by omega)
    simp only [e]
    exact ⟨(hsame _).1, (hsame _).2.1, (hsame _).2.2.1, (hsame _).2.2.2.2⟩

/-- While the program runs, torrents stay on their threads, and stuck threads stay stuck. -/
theorem threads_step {w : World} {A A' : App} (h : AStep w A A') (hl : A.proc.log ≠ none) (hr : A'.proc.log ≠ none) :
    (∃ x, A'.home = A.home ++ x) ∧ ∃ y, A'.stuck = y ++ A.stuck := by
  cases h with
  | start hl' => exact absurd hl' hl
  | work => exact ⟨⟨[], by simp⟩, [], rfl⟩
  | add _ _ _ _ thread => exact ⟨⟨[thread], rfl⟩, [], rfl⟩
  | track => exact ⟨⟨[], by simp⟩, [], rfl⟩
  | deliver => exact ⟨⟨[], by simp⟩, [], rfl⟩
  | stick k h => exact ⟨⟨[], by simp⟩, [h], rfl⟩
  | stop _ _ hr' => exact absurd hr' hr

theorem run_threads {w : World} {Q : Info → Prop} {fs : FS} {n : Nat} {run : Nat → App} (h : Run w Q fs n run) (i d : Nat) :
    (∃ x, (run (i + d)).home = (run i).home ++ x) ∧ ∃ y, (run (i + d)).stuck = y ++ (run i).stuck := by
  induction d with
  | zero => exact ⟨⟨[], by simp⟩, [], rfl⟩
  | succ d ih =>
    obtain ⟨⟨x, hx⟩, y, hy⟩ := ih
    obtain ⟨⟨x', hx'⟩, y', hy'⟩ := threads_step (h.step (i + d)) (h.on _) (h.on _)
    exact ⟨⟨x ++ x', by rw [← List.append_assoc, ← hx, ← hx']; rfl⟩, y' ++ y, by rw [List.append_assoc, ← hy, ← hy']; rfl⟩

/-- A torrent whose thread is free in the end was so all the time. -/
theorem run_free {w : World} {Q : Info → Prop} {fs : FS} {n : Nat} {run : Nat → App} (h : Run w Q fs n run) {k : Nat} (h0 : ∃ t, (run 0).home[k]? = some t)
    {i j : Nat} (hij : i ≤ j) (hf : (run j).Free k) : (run i).Free k := by
  obtain ⟨d, rfl⟩ := Nat.exists_eq_add_of_le hij
  obtain ⟨⟨x, hx⟩, y, hy⟩ := run_threads h i d
  obtain ⟨⟨x', hx'⟩, -⟩ := run_threads h 0 i
  rw [Nat.zero_add] at hx'
  obtain ⟨t, ht⟩ := h0
  obtain ⟨t', h1, h2⟩ := hf
  have hi : (run i).home[k]? = some t := by
    rw [hx', List.getElem?_append_left (List.getElem?_eq_some_iff.mp ht).1]
    exact ht
  rw [hx, List.getElem?_append_left (List.getElem?_eq_some_iff.mp hi).1, hi] at h1
  cases h1
  exact ⟨t, hi, fun hm => h2 (by rw [hy]; exact List.mem_append_right _ hm)⟩

/-! ### Getting to rest -/

theorem okOrPanic_bind {ε α β : Type} {x : Res ε α} {g : α → Res ε β} (hx : (∃ a, x = .ok a) ∨ x = .panic) (hg : ∀ a, (∃ b, g a = .ok b) ∨ g a = .panic) :
    (∃ b, (x >>= g) = .ok b) ∨ (x >>= g) = .panic := by
  rcases hx with ⟨a, rfl⟩ | rfl
  · exact hg a
  · exact .inr rfl

theorem okOrPanic_arith {ε : Type} (m : Build) (a b : Nat) : ((∃ c, (uadd m a b : Res ε Nat) = .ok c) ∨ (uadd m a b : Res ε Nat) = .panic) ∧
    ((∃ c, (umul m a b : Res ε Nat) = .ok c) ∨ (umul m a b : Res ε Nat) = .panic) ∧ ((∃ c, (usub m a b : Res ε Nat) = .ok c) ∨ (usub m a b : Res ε Nat) = .panic) := by
  refine ⟨?_, ?_, ?_⟩
  · unfold uadd
    repeat' split
    all_goals first | exact .inl ⟨_, rfl⟩ | exact .inr rfl
  · unfold umul
    repeat' split
    all_goals first | exact .inl ⟨_, rfl⟩ | exact .inr rfl
  · unfold usub
    repeat' split
    all_goals first | exact .inl ⟨_, rfl⟩ | exact .inr rfl

theorem fileWritersLoop_okOrPanic {ε : Type} (m : Build) (piece : Bytes) : ∀ (files : List File) (p : FileParser) (acc : List FileWriter),
    (∃ ws, (fileWritersLoop m piece files p acc : Res ε _) = .ok ws) ∨ (fileWritersLoop m piece files p acc : Res ε _) = .panic := by
  intro files
  induction files with
  | nil => exact fun p acc => .inl ⟨acc, rfl⟩
  | cons f files ih =>
    intro p acc
    rw [fileWritersLoop]
    refine okOrPanic_bind (okOrPanic_bind (okOrPanic_arith ..).1 fun _ => .inl ⟨_, rfl⟩) fun p => ?_
    split
    · refine okOrPanic_bind (okOrPanic_bind (okOrPanic_arith ..).1 fun _ => .inl ⟨_, rfl⟩) fun p => ?_
      refine okOrPanic_bind (okOrPanic_bind (okOrPanic_arith ..).2.2 fun _ => (okOrPanic_arith ..).2.2) fun _ => ?_
      refine okOrPanic_bind (okOrPanic_bind (okOrPanic_arith ..).2.2 fun _ => (okOrPanic_arith ..).2.2) fun _ => ?_
      refine okOrPanic_bind (okOrPanic_arith ..).2.2 fun _ => ?_
      refine okOrPanic_bind (okOrPanic_arith ..).2.2 fun _ => ?_
      refine okOrPanic_bind ?_ fun _ => ?_
      · unfold slice
        split
        · exact .inl ⟨_, rfl⟩
        · exact .inr rfl
      refine okOrPanic_bind (okOrPanic_bind (okOrPanic_arith ..).1 fun _ => .inl ⟨_, rfl⟩) fun _ => ?_
      split
      · exact ih _ _
      · exact .inl ⟨_, rfl⟩
    · exact ih _ _

theorem getFileWriters_okOrPanic {ε : Type} (m : Build) (files : List File) (piece : Bytes) (idx pl : Nat) :
    (∃ ws, (getFileWriters m files piece idx pl : Res ε _) = .ok ws) ∨ (getFileWriters m files piece idx pl : Res ε _) = .panic :=
  okOrPanic_bind (okOrPanic_bind (okOrPanic_arith ..).2.1 fun _ => .inl ⟨_, rfl⟩) fun _ => fileWritersLoop_okOrPanic ..

/-- The torrents other than `k` are as before, and the program runs on. -/
def Kept (A : App) (k : Nat) (P' : Proc) : Prop := P'.log = A.proc.log ∧ ∀ j, j ≠ k → P'.slots[j]? = A.proc.slots[j]?

theorem Kept.trans {A : App} {k : Nat} {P1 P2 : Proc} (h1 : Kept A k P1) (h2 : Kept { A with proc := P1 } k P2) : Kept A k P2 :=
  ⟨h2.1.trans h1.1, fun j hj => (h2.2 j hj).trans (h1.2 j hj)⟩

theorem infos_set {Q : Info → Prop} {A : App} {k : Nat} {y : Slot} (hQ : ∀ s ∈ A.proc.slots, ∀ i, s.sys.torrent.info = some i → Q i)
    (hy : ∀ i, y.sys.torrent.info = some i → Q i) : ∀ s ∈ A.proc.slots.set k y, ∀ i, s.sys.torrent.info = some i → Q i := by
  intro s hs i hi
  rcases List.mem_or_eq_of_mem_set hs with hs | rfl
  · exact hQ s hs i hi
  · exact hy i hi

/-- The writer gets done with a piece it is in the middle of. -/
theorem writer_parts {w : World} {Q : Info → Prop} {k : Nat} {sys : Sys} {r : Ready} {ready : List Ready} (hr : sys.ready = r :: ready) (ws : List FileWriter) :
    ∀ {A : App}, A.proc.log ≠ none → A.Free k → A.proc.slots[k]? = some ⟨sys, some ws⟩ → (∀ s ∈ A.proc.slots, ∀ i, s.sys.torrent.info = some i → Q i) →
    ∃ P' up, OnSteps w Q A { A with proc := P' } ∧ Kept A k P' ∧ P'.slots[k]? = some (Slot.done ⟨sys, none⟩ r ready up) := by
  induction ws with
  | nil =>
    intro A hl hf hk hQ
    have hlt := (List.getElem?_eq_some_iff.mp hk).1
    have st := work_set hl hk (PStep.end (w := w) A.proc k _ r ready hk rfl hr) rfl rfl rfl hf
    exact ⟨_, true, .tail (.refl _) st (infos_set hQ fun i hi => hQ _ (List.mem_of_getElem? hk) i hi) hl, ⟨rfl, fun j hj => List.getElem?_set_ne (Ne.symm hj)⟩,
      List.getElem?_set_self hlt⟩
  | cons x xs ih =>
    intro A hl hf hk hQ
    have hlt := (List.getElem?_eq_some_iff.mp hk).1
    rcases writeToFilesystem_ok_or_panic (ε := Unit) (cwd := w.cwd) (fs := A.proc.fs) (w := x) with e | e
    · have st := work_set hl hk (PStep.part (w := w) A.proc k _ x xs _ hk rfl (Prod.ext e rfl)) rfl rfl rfl hf
      have hq := infos_set (k := k) (y := ⟨sys, some xs⟩) hQ fun i hi => hQ _ (List.mem_of_getElem? hk) i hi
      obtain ⟨P', up, h1, h2, h3⟩ := ih (A := { A with proc := { A.proc with slots := A.proc.slots.set k ⟨sys, some xs⟩, fs := _ } }) hl hf
        (List.getElem?_set_self hlt) hq
      exact ⟨P', up, (OnSteps.tail (.refl _) st hq hl).trans h1, ⟨h2.1, fun j hj => (h2.2 j hj).trans (List.getElem?_set_ne (Ne.symm hj))⟩, h3⟩
    · have st := work_set hl hk (PStep.partCrash (w := w) A.proc k _ x xs _ r ready hk rfl hr (Prod.ext e rfl)) rfl rfl rfl hf
      exact ⟨_, false, .tail (.refl _) st (infos_set hQ fun i hi => hQ _ (List.mem_of_getElem? hk) i hi) hl, ⟨rfl, fun j hj => List.getElem?_set_ne (Ne.symm hj)⟩,
        List.getElem?_set_self hlt⟩

theorem writer_piece {w : World} {Q : Info → Prop} {k : Nat} {s : Slot} {r : Ready} {ready : List Ready} {info : Info} (hr : s.sys.ready = r :: ready)
    (hu : s.sys.writerUp = true) (hi : s.sys.torrent.info = some info) {A : App} (hl : A.proc.log ≠ none) (hf : A.Free k) (hk : A.proc.slots[k]? = some s)
    (hQ : ∀ s ∈ A.proc.slots, ∀ i, s.sys.torrent.info = some i → Q i) :
    ∃ P' up, OnSteps w Q A { A with proc := P' } ∧ Kept A k P' ∧ P'.slots[k]? = some (s.done r ready up) := by
  have hlt := (List.getElem?_eq_some_iff.mp hk).1
  obtain ⟨sys, parts⟩ := s
  cases parts with
  | some ws => exact writer_parts hr ws hl hf hk hQ
  | none =>
    rcases getFileWriters_okOrPanic (ε := Unit) w.build r.files r.piece r.idx r.pieceLength with ⟨ws, e⟩ | e
    · have st := work_set hl hk (PStep.begin (w := w) A.proc k _ r ready info ws hk rfl hu hr hi e) rfl rfl rfl hf
      have hq := infos_set (k := k) (y := ⟨sys, some ws⟩) hQ fun i hi => hQ _ (List.mem_of_getElem? hk) i hi
      obtain ⟨P', up, h1, h2, h3⟩ := writer_parts (w := w) (Q := Q) hr ws
        (A := { A with proc := { A.proc with slots := A.proc.slots.set k ⟨sys, some ws⟩, taken := A.proc.taken ++ [(info, r)] } }) hl hf (List.getElem?_set_self hlt) hq
      exact ⟨P', up, (OnSteps.tail (.refl _) st hq hl).trans h1, ⟨h2.1, fun j hj => (h2.2 j hj).trans (List.getElem?_set_ne (Ne.symm hj))⟩, h3⟩
    · have st := work_set hl hk (PStep.beginCrash (w := w) A.proc k _ r ready info hk rfl hu hr hi e) rfl rfl rfl hf
      exact ⟨_, false, .tail (.refl _) st (infos_set hQ fun i hi => hQ _ (List.mem_of_getElem? hk) i hi) hl, ⟨rfl, fun j hj => List.getElem?_set_ne (Ne.symm hj)⟩,
        List.getElem?_set_self hlt⟩

/-- No piece has been reported. -/
def NoSuccess (s : Sys) : Prop := ∀ e p i, Mail.success e p i ∉ s.mail

/-- Something can happen as long as there is something to do; `good` says whether downloads succeed or kill the worker. -/
theorem can_go {w : World} {info : Info} {n : Nat} {s : Sys} (h : Known w info n s) (good : Bool)
    (serve : good = true → ∀ i, i < n → ∃ net f piece, downloadPiece w.sha w.build (.connected net) f [] info i = .ok piece)
    (hf : s.mail ≠ [] ∨ s.queue ≠ [] ∨ s.busy ≠ []) :
    ∃ t, Step w s t ∧ peersReported t = peersReported s ∧ downloadsFailed t = downloadsFailed s ∧ t.written = s.written ∧
      (good = true → t.lost = s.lost) ∧ (good = false → NoSuccess s → NoSuccess t ∧ handed t = handed s) := by
  cases hm : s.mail with
  | cons m rest =>
    have hc := counts_move s _ rest hm
    have hrest : NoSuccess s → ∀ e p i, Mail.success e p i ∉ rest := fun h e p i hx => h e p i (by rw [hm]; exact List.mem_cons_of_mem _ hx)
    cases m with
    | found p =>
      refine ⟨_, .found s p rest h.up hm info h.hasInfo (List.replicate 5 (s.torrent.addPeer p).peers) (by simp) ?_, ?_, ?_, rfl, fun _ => rfl, fun _ hs => ⟨hrest hs, ?_⟩⟩
      · intro l hl
        rw [List.eq_of_mem_replicate hl]
      · simp only [peersReported, Sys.after, hc]
      · simp only [downloadsFailed, Sys.after, hc]
      · simp only [handed, Sys.after, Torrent.onReady]
        split
        · split <;> simp
        · simp
    | success e piece i =>
      refine ⟨_, .success s e piece i rest h.up hm, ?_, ?_, rfl, fun _ => rfl, fun _ hs => absurd (by rw [hm]; exact List.mem_cons_self) (hs e piece i)⟩
      · simp only [peersReported, Sys.after, hc]
      · simp only [downloadsFailed, Sys.after, hc]
    | failed e i =>
      refine ⟨_, .failed s e i rest h.up hm _ (.refl _), ?_, ?_, rfl, fun _ => rfl, fun _ hs => ⟨hrest hs, ?_⟩⟩
      · simp only [peersReported, Sys.after, hc]
      · simp only [downloadsFailed, Sys.after, hc]
      · simp only [handed, Sys.after, Torrent.onFailed]
        split
        · simp
        · split
          · split <;> simp
          · simp
  | nil =>
    cases hb : s.busy with
    | cons r post =>
      obtain ⟨hri, a, ha⟩ := h.requests r (by rw [hb]; simp)
      have hlt : r.idx < n := by
        have : r.idx ∈ waiting s ++ flight s ++ handed s ++ s.lost := by
          simp [flight, hb]
        exact List.mem_range.mp (h.perm.mem_iff.mp this)
      cases good with
      | true =>
        obtain ⟨net, f, piece, e⟩ := serve rfl r.idx hlt
        refine ⟨_, .finishOk s [] post r hb (fun _ => some net) f [] piece ?_, ?_, ?_, rfl, fun _ => rfl, fun e => by cases e⟩
        · rw [dialOf, ha, hri]
          exact e
        · simp [peersReported, hm]
        · simp [downloadsFailed, hm]
      | false =>
        refine ⟨_, .finishPanic s [] post r hb (fun _ => some crashingPeer) 0 [] ?_, rfl, rfl, rfl, (fun e => by cases e), fun _ hs => ⟨hs, rfl⟩⟩
        rw [dialOf, ha]
        exact download_crashes ..
    | nil =>
      cases hq : s.queue with
      | nil =>
        rw [hm, hq, hb] at hf
        simp at hf
      | cons r q =>
        refine ⟨_, .take s r q hq ?_, rfl, rfl, rfl, fun _ => rfl, fun _ hs => ⟨hs, rfl⟩⟩
        have h1 := h.workers
        have h2 := h.five
        simp [flight, hq] at h2
        rw [hb]
        simp
        omega

/-- A torrent with metadata can come to rest, whether downloads succeed or kill the workers. -/
theorem to_rest {w : World} {Q : Info → Prop} {fs : FS} {n c : Nat} {info : Info} {k : Nat} (good : Bool)
    (serve : good = true → ∀ i, i < c → ∃ net f piece, downloadPiece w.sha w.build (.connected net) f [] info i = .ok piece) :
    ∀ (m : Nat) {A : App} {s : Slot}, ASteps w Q (App.init fs n) A → A.proc.log ≠ none → A.Free k → A.proc.slots[k]? = some s → Known w info c s.sys →
    stepsLeft s.sys + 2 * s.sys.lost.length = m →
    ∃ P' t, OnSteps w Q A { A with proc := P' } ∧ Kept A k P' ∧ P'.slots[k]? = some t ∧ AtRest t.sys ∧ t.sys.torrent.info = some info ∧
      downloadsFailed t.sys = downloadsFailed s.sys ∧ (good = true → t.sys.lost = s.sys.lost) ∧
      (good = false → NoSuccess s.sys → handed t.sys = handed s.sys) := by
  intro m
  induction m using Nat.strongRecOn with
  | ind m ih =>
    intro A s hA hl hf hk hkn hm
    have hlt := (List.getElem?_eq_some_iff.mp hk).1
    have hQ := holds_steps hA (fun x hx => by cases hx)
    by_cases hgo : s.sys.mail ≠ [] ∨ s.sys.queue ≠ [] ∨ s.sys.busy ≠ []
    · obtain ⟨t, h1, h2, h3, h4, h5, h6⟩ := can_go (s := { s.sys with fs := A.proc.fs }) (known_fs hkn _) good serve hgo
      have htold := quiet_step h1 h2
      have st := work_set hl hk (PStep.act (w := w) A.proc k s t hk h1 h4) rfl rfl htold hf
      have hkt := known_step (known_fs hkn _) h1
      have hq := infos_set (k := k) (y := ⟨t, s.parts⟩) hQ fun i hi => by
        have e : t.torrent.info = some i := hi
        rw [hkt.hasInfo] at e
        exact hQ s (List.mem_of_getElem? hk) i (hkn.hasInfo.trans e)
      have hleft : 1 + stepsLeft t + 2 * t.lost.length + 2 * peersReported s.sys + 3 * downloadsFailed s.sys =
        stepsLeft s.sys + 2 * s.sys.lost.length + 2 * peersReported t + 3 * downloadsFailed t := by
          have := left_step (known_fs hkn A.proc.fs) h1
          exact this
      have e1 : peersReported t = peersReported s.sys := h2
      have e2 : downloadsFailed t = downloadsFailed s.sys := h3
      obtain ⟨P', u, g1, g2, g3, g4, g5, g6, g7, g8⟩ := ih (stepsLeft t + 2 * t.lost.length) (by omega)
        (A := { A with proc := { A.proc with slots := A.proc.slots.set k ⟨t, s.parts⟩, fs := t.fs } }) (s := ⟨t, s.parts⟩)
        (.tail hA st hq) hl hf (List.getElem?_set_self hlt) hkt rfl
      refine ⟨P', u, (OnSteps.tail (.refl _) st hq hl).trans g1, ⟨g2.1, fun j hj => (g2.2 j hj).trans (List.getElem?_set_ne (Ne.symm hj))⟩, g3, g4, g5, g6.trans h3,
        fun e => (g7 e).trans (h5 e), fun e hs => ?_⟩
      obtain ⟨a, b⟩ := h6 e hs
      exact (g8 e a).trans b
    · have hmail : s.sys.mail = [] := Classical.byContradiction fun e => hgo (.inl e)
      have hqueue : s.sys.queue = [] := Classical.byContradiction fun e => hgo (.inr (.inl e))
      have hbusy : s.sys.busy = [] := Classical.byContradiction fun e => hgo (.inr (.inr e))
      cases hr : s.sys.ready with
      | nil => exact ⟨A.proc, s, .refl _, ⟨rfl, fun _ _ => rfl⟩, hk, ⟨hmail, hqueue, hbusy, fun _ => hr⟩, hkn.hasInfo, rfl, fun _ => rfl, fun _ _ => rfl⟩
      | cons r ready =>
        cases hu : s.sys.writerUp with
        | false => exact ⟨A.proc, s, .refl _, ⟨rfl, fun _ _ => rfl⟩, hk, ⟨hmail, hqueue, hbusy, fun e => by rw [hu] at e; cases e⟩, hkn.hasInfo, rfl, fun _ => rfl, fun _ _ => rfl⟩
        | true =>
          obtain ⟨P1, up, h1, h2, h3⟩ := writer_piece (w := w) hr hu hkn.hasInfo hl hf hk hQ
          have hA1 := hA.trans h1.steps
          have hkn1 := known_move hkn (.done r ready up hr rfl) hA1 (List.mem_of_getElem? h3)
          have hlen : stepsLeft (s.done r ready up).sys + 1 = stepsLeft s.sys := by
            simp only [stepsLeft, waiting, Slot.done, hr, List.length_cons]
            omega
          have hlost : (s.done r ready up).sys.lost = s.sys.lost := rfl
          obtain ⟨P', u, g1, g2, g3, g4, g5, g6, g7, g8⟩ := ih (stepsLeft (s.done r ready up).sys + 2 * (s.done r ready up).sys.lost.length) (by rw [hlost]; omega)
            (A := { A with proc := P1 }) (s := s.done r ready up) hA1 (by rw [show ({ A with proc := P1 } : App).proc.log = A.proc.log from h2.1]; exact hl) hf h3 hkn1 rfl
          refine ⟨P', u, h1.trans g1, h2.trans g2, g3, g4, g5, g6, g7, fun e hs => ?_⟩
          rw [g8 e hs]
          simp [handed, Slot.done, hr]

/-! ### C111 -/

theorem fair_run {w : World} {Q : Info → Prop} {fs : FS} {n : Nat} {A : App} (hA : ASteps w Q (App.init fs n) A) (hl : A.proc.log ≠ none) {k : Nat} (hf : A.Free k)
    {s : Slot} {info : Info} (hk : A.proc.slots[k]? = some s) (hi : s.sys.torrent.info = some info) (good : Bool)
    (serve : good = true → ∀ i, i < wrappedCount info → ∃ net f piece, downloadPiece w.sha w.build (.connected net) f [] info i = .ok piece) :
    ∃ run, Run w Q fs n run ∧ run 0 = A ∧ Fair run k ∧ (∀ i, (run i).Free k) ∧ (∃ m, ∀ j, m ≤ j → (run j).trackers = A.trackers ∧ (run j).delivered = A.delivered ∧
      ∃ t, (run j).proc.slots[k]? = some t ∧ AtRest t.sys) ∧ ∀ i t, (run i).proc.slots[k]? = some t →
      downloadsFailed t.sys = downloadsFailed s.sys ∧ (good = true → t.sys.lost = s.sys.lost) ∧ (good = false → NoSuccess s.sys → handed t.sys = handed s.sys) := by
  have hm := List.mem_of_getElem? hk
  obtain ⟨c, hkn⟩ := among_known (C84_among hA hm) hi
  have hc : c = wrappedCount info := by
    have h1 := (C84_exact hA hm hi).length_eq
    have h2 := hkn.perm.length_eq
    rw [h1, List.length_range, List.length_range] at h2
    exact h2.symm
  subst hc
  obtain ⟨P', t, h1, h2, h3, h4, h5, h6, h7, h8⟩ := to_rest good serve _ hA hl hf hk hkn rfl
  obtain ⟨run, m, r1, r2, r3⟩ := forever hA hl h1
  have hend : ∀ j, m ≤ j → (run j).proc.slots[k]? = some t := fun j hj => by rw [(r3 j hj).1]; exact h3
  refine ⟨run, r1, r2, rest_fair r1 (m := m) fun j hj => ⟨t, hend j hj, h4⟩, fun i => ?_,
    ⟨m, fun j hj => ⟨(r3 j hj).2.2.2.1, (r3 j hj).2.2.2.2, t, hend j hj, h4⟩⟩, fun i x hx => ?_⟩
  · obtain ⟨th, e1, e2⟩ := hf
    refine run_free r1 ⟨th, by rw [r2]; exact e1⟩ (Nat.le_add_right i m) ⟨th, ?_, ?_⟩
    · rw [(r3 _ (by omega)).2.1]
      exact e1
    · rw [(r3 _ (by omega)).2.2.1]
      exact e2
  · have l1 := run_later r1 (Nat.zero_le i) (by rw [r2]; exact hk) hx
    have l2 := run_later r1 (Nat.le_add_right i m) hx (hend (i + m) (by omega))
    obtain ⟨b1, b2, b3⟩ := l1.between l2
    exact ⟨b1 h6, fun e => b2 (h7 e), fun e hs => b3 (h8 e hs)⟩

/-- C111: fairness never asks for what is impossible. From every state in which the program runs and the thread of a torrent with metadata is not stuck,
there is a fair run, without further failures. -/
theorem C111_fair_runs {w : World} {Q : Info → Prop} {fs : FS} {n : Nat} {A : App} (hA : ASteps w Q (App.init fs n) A) (hl : A.proc.log ≠ none) {k : Nat}
    (hf : A.Free k) {s : Slot} {info : Info} (hk : A.proc.slots[k]? = some s) (hi : s.sys.torrent.info = some info) :
    ∃ run, Run w Q fs n run ∧ run 0 = A ∧ Fair run k ∧ (∀ i, (run i).Free k) ∧
      ∀ i t, (run i).proc.slots[k]? = some t → downloadsFailed t.sys = downloadsFailed s.sys := by
  obtain ⟨run, h1, h2, h3, h4, -, h5⟩ := fair_run hA hl hf hk hi false (fun e => by cases e)
  exact ⟨run, h1, h2, h3, h4, fun i t ht => (h5 i t ht).1⟩

/-- C111: if the torrent is as its publisher described it, there is a fair run in which no worker dies either. -/
theorem C111_served_runs {w : World} {Q : Info → Prop} {fs : FS} {n : Nat} {A : App} {info : Info} {d : Bytes} (hsha : ∀ b, (w.sha b).length = 20)
    (hd : Describes w.sha info d) (hfit : Fits info d) (hA : ASteps w Q (App.init fs n) A) (hl : A.proc.log ≠ none) {k : Nat} (hf : A.Free k) {s : Slot}
    (hk : A.proc.slots[k]? = some s) (hi : s.sys.torrent.info = some info) :
    ∃ run, Run w Q fs n run ∧ run 0 = A ∧ Fair run k ∧ (∀ i, (run i).Free k) ∧
      ∀ i t, (run i).proc.slots[k]? = some t → downloadsFailed t.sys = downloadsFailed s.sys ∧ t.sys.lost = s.sys.lost := by
  have hc : wrappedCount info = pieceCount d.length info.pieceLength := by
    have hm := List.mem_of_getElem? hk
    obtain ⟨c, hkn⟩ := among_known (C84_among hA hm) hi
    have h1 := (C84_exact hA hm hi).length_eq
    have h2 := hkn.perm.length_eq
    rw [h1, List.length_range, List.length_range] at h2
    rw [h2]
    exact known_count hkn hd hfit.length
  obtain ⟨run, h1, h2, h3, h4, -, h5⟩ := fair_run hA hl hf hk hi true (fun _ i hi => by
    obtain ⟨net, f, pc, e, -⟩ := serve_of hsha hd hfit i (hc ▸ hi)
    exact ⟨net, f, pc, e⟩)
  exact ⟨run, h1, h2, h3, h4, fun i t ht => ⟨(h5 i t ht).1, (h5 i t ht).2.1 rfl⟩⟩

/-- Without the condition that workers survive C111 is false, in every state: if no piece has been reported to a torrent, there is a fair run without
further failures in which nothing more is ever handed to the writer. -/
theorem C111_refuted_workers {w : World} {Q : Info → Prop} {fs : FS} {n : Nat} {A : App} (hA : ASteps w Q (App.init fs n) A) (hl : A.proc.log ≠ none) {k : Nat}
    (hf : A.Free k) {s : Slot} {info : Info} (hk : A.proc.slots[k]? = some s) (hi : s.sys.torrent.info = some info)
    (hs : ∀ e p i, Mail.success e p i ∉ s.sys.mail) :
    ∃ run, Run w Q fs n run ∧ run 0 = A ∧ Fair run k ∧ (∀ i, (run i).Free k) ∧
      ∀ i t, (run i).proc.slots[k]? = some t → downloadsFailed t.sys = downloadsFailed s.sys ∧ handed t.sys = handed s.sys := by
  obtain ⟨run, h1, h2, h3, h4, -, h5⟩ := fair_run hA hl hf hk hi false (fun e => by cases e)
  exact ⟨run, h1, h2, h3, h4, fun i t ht => ⟨(h5 i t ht).1, (h5 i t ht).2.2 rfl hs⟩⟩

/-! ### Non-vacuity -/

theorem peersAfter_found_all (l : List PeerEndpoint) : (peersAfter (l.map .found)).length = l.length := by
  induction l with
  | nil => rfl
  | cons p l ih => simp [peersAfter, ih]

/-- In every world, on a disk with nothing but the metadata of a torrent, the program can get to a state in which this torrent has its
metadata, will start, and has got no piece yet; it has heard of one peer only. -/
theorem about_to_start_told (w : World) {info : Info} {d : Bytes} (hd : Describes w.sha info d) (h64 : d.length < 2 ^ 64) (hpos : 0 < d.length) (htyped : Typed info)
    {Q : Info → Prop} (hQ : Q info) :
    ∃ A s, ASteps w Q (App.init (cachedFs w.cwd (List.replicate 20 17) info) 1) A ∧
    A.proc.log ≠ none ∧ A.Free 0 ∧ A.proc.slots[0]? = some s ∧ s.sys.torrent.info = some info ∧ Starts s.sys ∧ s.sys.lost = [] ∧
    handed s.sys = [] ∧ (∀ e p i, Mail.success e p i ∉ s.sys.mail) ∧ downloadsFailed s.sys = 0 ∧ s.sys.told = List.replicate 11 peer0 ∧
    s.sys.torrent.initiated = false := by
  have hlog : cachedFs w.cwd (List.replicate 20 17) info (w.cwd ++ [b!"test.log"]) = none := by
    rw [cachedFs, if_neg (other_name (by decide) []), if_neg]
    intro e
    have := congrArg List.length e
    simp [cacheLoc] at this
  obtain ⟨fs', h1, h2, h3⟩ := started w Q (fs := cachedFs w.cwd (List.replicate 20 17) info) 1 (by rw [hlog]; simp)
  have hc := cachedFs_cached w.cwd (List.replicate 20 17) info
  have hc' : Cached fs' w.cwd (List.replicate 20 17) info :=
    ⟨(h3 _ (other_name (by decide) [])).trans hc.1, by show readFile fs' _ = _; rw [readFile, h3 (cacheLoc w.cwd (List.replicate 20 17)) (other_name (by decide) _)]; exact hc.2⟩
  obtain ⟨A2, y, l, s3, c1, c2, c3, c4, c5, c6, c7, d1, ⟨d2, fs1, d3⟩, hl11, hpeers, -⟩ := request_heard_all (w := w) (Q := Q) (thread := 0)
    (ainv_steps h1 (ainv_init _ _)) (fun x hx => by cases hx) (by simp) init_up (by show 0 < 1; decide) (by simp) (add1 w.build)
  have hA2 := h1.trans s3.steps
  have hl11 : l = List.replicate 11 peer0 := hl11
  have h11 : 11 ≤ l.length := by rw [hl11]; simp
  have hfree : A2.Free 0 := ⟨0, by rw [c5]; rfl, by rw [c3]; simp⟩
  cases l with
  | nil => simp at h11
  | cons p l =>
    have htot : (pieceTotal w.build info : Res Unit Nat) = .ok (pieceCount d.length info.pieceLength) :=
      pieceTotal_of hd h64 hpos
    have st := Step.collect (w := w) { Sys.init (List.replicate 20 17) fs' with mail := (p :: l).map .found } p (l.map .found) rfl rfl rfl (fun _ => none) 0 [] 0
      (.ok (some info)) fs' (by simp) (collect_on (by decide) htyped hc' _ _ _ _)
    have hat : At A2.proc 0 { Sys.init (List.replicate 20 17) fs' with mail := (p :: l).map .found } := by
      obtain ⟨ys, yp⟩ := y
      simp only [] at d2 d3
      refine ⟨ys, by rw [← d2]; exact d1, ?_⟩
      rw [d3]
      simp only [c2]
      rfl
    obtain ⟨P', g1, ⟨z, g2, g6⟩, g3, g4, g5⟩ := alift_step (w := w) (Q := Q) (by rw [c1]; simp) hfree hat st
      (reported_after { Sys.init (List.replicate 20 17) fs' with mail := (p :: l).map .found } _ (l.map .found)
        (((Sys.init (List.replicate 20 17) fs').torrent.addPeer p).onCollected w.build (.ok (some info))) rfl)
      rfl (fun h => absurd rfl h) (holds_steps hA2 (fun x hx => by cases hx)) (fun i hi => by
        simp only [Sys.after, Torrent.onCollected, htot] at hi
        cases hi
        exact hQ)
    refine ⟨_, ⟨z, none⟩, hA2.trans g1.steps, by show P'.log ≠ none; rw [g3, c1]; simp, hfree, g2, ?_⟩
    simp only [Sys.after, Torrent.onCollected, htot, Sys.init] at g6
    obtain ⟨l', p', rfl⟩ : ∃ l' p', l = p' :: l' := by
      cases l with
      | nil => simp at h11
      | cons a b => exact ⟨b, a, rfl⟩
    have e1 := congrArg Sys.torrent g6
    have e2 := congrArg Sys.mail g6
    have e3 := congrArg Sys.handled g6
    have e4 := congrArg Sys.lost g6
    have e5 := congrArg Sys.written g6
    have e6 := congrArg Sys.ready g6
    simp only [List.append_nil, List.nil_append] at e1 e2 e3 e4 e5 e6
    refine ⟨by rw [e1], .inr ⟨?_, p', ?_⟩, e4, ?_, ?_, ?_, ?_⟩
    · rw [peersAfter_told, e2, e3, List.singleton_append, ← List.map_cons, peersAfter_found_all]
      omega
    · rw [e2]; simp
    · rw [handed, e5, e6]; rfl
    · intro e pc i hx
      rw [e2] at hx
      obtain ⟨q, -, hq⟩ := List.mem_map.mp hx
      cases hq
    · simp only [downloadsFailed, e2, e3, List.singleton_append]
      rw [List.countP_eq_zero]
      intro m hm
      rcases List.mem_cons.mp hm with rfl | hm
      · simp
      · obtain ⟨q, -, rfl⟩ := List.mem_map.mp hm
        simp
    · rw [← hl11, Sys.told, e2, e3]
      exact ⟨found_peers (p :: p' :: l'), by rw [e1]; rfl⟩

/-- As `about_to_start_told`. -/
theorem about_to_start_any (w : World) {info : Info} {d : Bytes} (hd : Describes w.sha info d) (h64 : d.length < 2 ^ 64) (hpos : 0 < d.length) (htyped : Typed info)
    {Q : Info → Prop} (hQ : Q info) :
    ∃ A s, ASteps w Q (App.init (cachedFs w.cwd (List.replicate 20 17) info) 1) A ∧
    A.proc.log ≠ none ∧ A.Free 0 ∧ A.proc.slots[0]? = some s ∧ s.sys.torrent.info = some info ∧ Starts s.sys ∧ s.sys.lost = [] ∧
    handed s.sys = [] ∧ (∀ e p i, Mail.success e p i ∉ s.sys.mail) ∧ downloadsFailed s.sys = 0 := by
  obtain ⟨A, s, h1, h2, h3, h4, h5, h6, h7, h8, h9, h10, -⟩ := about_to_start_told w hd h64 hpos htyped hQ
  exact ⟨A, s, h1, h2, h3, h4, h5, h6, h7, h8, h9, h10⟩

/-- In every world, on a disk with nothing but the metadata of a torrent of three bytes, the program can get to a state in which this torrent has its
metadata, will start, and has got no piece yet. -/
theorem about_to_start (w : World) (hsha : ∀ b, (w.sha b).length = 20) :
    ∃ A s, ASteps w (Beside (threeBytes w.sha)) (App.init (cachedFs w.cwd (List.replicate 20 17) (threeBytes w.sha)) 1) A ∧
    A.proc.log ≠ none ∧ A.Free 0 ∧ A.proc.slots[0]? = some s ∧ s.sys.torrent.info = some (threeBytes w.sha) ∧ Starts s.sys ∧ s.sys.lost = [] ∧
    handed s.sys = [] ∧ (∀ e p i, Mail.success e p i ∉ s.sys.mail) ∧ downloadsFailed s.sys = 0 :=
  about_to_start_any w (threeBytes_describes hsha) (by decide) (by decide) (threeBytes_typed _) (.inl rfl)

/-- C111_complete_partial and C111_files_partial: in every world, there is a run in which a torrent of three bytes is got. -/
example (w : World) (hsha : ∀ b, (w.sha b).length = 20) : ∃ run s, Run w (Beside (threeBytes w.sha)) (cachedFs w.cwd (List.replicate 20 17) (threeBytes w.sha)) 1 run ∧
    Fair run 0 ∧ (∀ i, (run i).Free 0) ∧ (run 0).proc.slots[0]? = some s ∧ s.sys.torrent.info = some (threeBytes w.sha) ∧ Starts s.sys ∧ handed s.sys = [] ∧
    (∀ i t, (run i).proc.slots[0]? = some t → downloadsFailed t.sys ≤ 0) ∧ (∀ i t, (run i).proc.slots[0]? = some t → t.sys.lost = []) ∧
    Layout w.cwd (cachedFs w.cwd (List.replicate 20 17) (threeBytes w.sha)) (listedFiles (threeBytes w.sha)) [1, 2, 3] 2 ∧ Unreserved (threeBytes w.sha) := by
  obtain ⟨A, s, h1, h2, h3, h4, h5, h6, h7, h8, h9, h10⟩ := about_to_start w hsha
  obtain ⟨run, r1, r2, r3, r4, r5⟩ := C111_served_runs hsha (threeBytes_describes hsha)
    ⟨by decide, by show pieceCount 3 2 ≤ 2 ^ 32; decide, by show 2 * pieceCount 3 2 < 2 ^ 64; decide⟩ h1 h2 h3 h4 h5
  have ha : cachedFs w.cwd (List.replicate 20 17) (threeBytes w.sha) (w.cwd ++ [b!"a"]) = none := by
    rw [cachedFs, if_neg (other_name (by decide) []), if_neg]
    intro e
    have := congrArg List.length e
    simp [cacheLoc] at this
  refine ⟨run, s, r1, r3, r4, by rw [r2]; exact h4, h5, h6, h8, fun i t ht => by rw [(r5 i t ht).1, h10]; exact Nat.le_refl _, fun i t ht => by rw [(r5 i t ht).2, h7],
    small_layout w.sha 1 2 3 ((threeBytes_layout_empty w).plain _ (List.mem_singleton.mpr rfl)) (by rw [ha]; simp) (fun c hc => absurd (ha.symm.trans hc) (by simp)), ?_⟩
  intro f hf
  rw [List.mem_singleton.mp hf]
  show some b!"a" ≠ some b!"downloads" ∧ some b!"a" ≠ some b!"test.log"
  decide

/-- C111 is false if workers die, in every world: there is a fair run without failures in which a torrent that starts is never handed a piece. -/
theorem C111_refuted (w : World) (hsha : ∀ b, (w.sha b).length = 20) :
    ∃ run s, Run w (Beside (threeBytes w.sha)) (cachedFs w.cwd (List.replicate 20 17) (threeBytes w.sha)) 1 run ∧
    Fair run 0 ∧ (∀ i, (run i).Free 0) ∧ (run 0).proc.slots[0]? = some s ∧ s.sys.torrent.info = some (threeBytes w.sha) ∧ Starts s.sys ∧ s.sys.lost = [] ∧
    (∀ i t, (run i).proc.slots[0]? = some t → downloadsFailed t.sys = 0 ∧ handed t.sys = []) ∧
    ∃ i, ∀ j, i ≤ j → ∃ t, (run j).proc.slots[0]? = some t ∧ t.sys.lost.Perm [0, 1] := by
  obtain ⟨A, s, h1, h2, h3, h4, h5, h6, h7, h8, h9, h10⟩ := about_to_start w hsha
  obtain ⟨run, r1, r2, r3, r4, r5⟩ := C111_refuted_workers h1 h2 h3 h4 h5 h9
  have hk : (run 0).proc.slots[0]? = some s := by rw [r2]; exact h4
  refine ⟨run, s, r1, r3, r4, hk, h5, h6, h7, fun i t ht => ⟨by rw [(r5 i t ht).1, h10], by rw [(r5 i t ht).2, h8]⟩, ?_⟩
  obtain ⟨i, hi⟩ := C111_rest r1 r3 r4 hk h5 (B := 0) (fun i t ht => by rw [(r5 i t ht).1, h10]; exact Nat.le_refl _)
  refine ⟨i, fun j hj => ?_⟩
  obtain ⟨t, t1, -, -, -, -, t2⟩ := hi j hj
  refine ⟨t, t1, ?_⟩
  have ht := (r5 j t t1).2.trans h8
  have hex := (C84_exact (run_asteps r1 j) (List.mem_of_getElem? t1) (run_info r1 hk h5 t1)).length_eq
  have hw : wrappedCount (threeBytes w.sha) = 2 := by simp [wrappedCount, threeBytes]
  rw [hw, ht] at hex
  simp only [List.length_append, List.length_range, List.length_nil] at hex
  have := t2 h6 (by omega)
  rw [hw, ht] at this
  exact this

end RustBit
