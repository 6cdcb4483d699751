/-
C84: what holds of one torrent holds of each of many.
-/
import Verif.Props.Request

namespace RustBit
open Spec

/-- What is known of a torrent of the process: its state is one of a torrent among others, and its writer is alive while it writes. -/
def SlotAmong (w : World) (s : Slot) : Prop := Among w s.sys ∧ (s.parts ≠ none → s.sys.writerUp = true)

theorem slotAmong_step {w : World} {P P' : Proc} (h : ∀ s ∈ P.slots, SlotAmong w s) (hst : PStep w P P') : ∀ s ∈ P'.slots, SlotAmong w s := by
  have put : ∀ {k : Nat} {x : Slot}, SlotAmong w x → ∀ s ∈ P.slots.set k x, SlotAmong w s := by
    intro k x hx s hs
    rcases List.mem_or_eq_of_mem_set hs with hs | rfl
    · exact h s hs
    · exact hx
  have done : ∀ {k : Nat} {s : Slot} {r : Ready} {ready : List Ready} {up : Bool}, P.slots[k]? = some s → s.sys.writerUp = true → s.sys.ready = r :: ready →
      SlotAmong w (s.done r ready up) := by
    intro k s r ready up hk hu hr
    exact ⟨.wrote (h s (List.mem_of_getElem? hk)).1 r ready hu hr s.sys.fs up, fun e => absurd rfl e⟩
  cases hst with
  | start => exact h
  | log => exact h
  | add hl body infoHash ha =>
    intro s hs
    rcases List.mem_append.mp hs with hs | hs
    · exact h s hs
    · rw [List.mem_singleton.mp hs]
      exact ⟨.init _ _, fun e => absurd rfl e⟩
  | act k s t hk hst hw =>
    obtain ⟨h1, h2⟩ := h s (List.mem_of_getElem? hk)
    exact put ⟨.step (.disk h1 P.fs) hst, fun e => (act_writer hst hw).1.trans (h2 e)⟩
  | begin k s r ready info ws hk hp hu => exact put ⟨(h s (List.mem_of_getElem? hk)).1, fun _ => hu⟩
  | beginCrash k s r ready info hk hp hu hr => exact put (done hk hu hr)
  | part k s x xs fs hk hp =>
    obtain ⟨h1, h2⟩ := h s (List.mem_of_getElem? hk)
    exact put ⟨h1, fun _ => h2 (by rw [hp]; simp)⟩
  | partCrash k s x xs fs r ready hk hp hr => exact put (done hk ((h s (List.mem_of_getElem? hk)).2 (by rw [hp]; simp)) hr)
  | «end» k s r ready hk hp hr => exact put (done hk ((h s (List.mem_of_getElem? hk)).2 (by rw [hp]; simp)) hr)
  | stop => exact fun s hs => by cases hs

theorem slotAmong_steps {w : World} {Q : Info → Prop} {P P' : Proc} (h : ∀ s ∈ P.slots, SlotAmong w s) (hst : PSteps w Q P P') :
    ∀ s ∈ P'.slots, SlotAmong w s := by
  induction hst with
  | refl => exact h
  | tail _ hs _ ih => exact slotAmong_step ih hs

/-- C84: the state of every torrent of the program is one that a torrent can get into by its own steps while others change the disk. So all that holds
of such states (C40 to C49) holds of every torrent of the program. -/
theorem C84_among {w : World} {Q : Info → Prop} {fs : FS} {n : Nat} {A : App} (h : ASteps w Q (App.init fs n) A) {s : Slot} (hs : s ∈ A.proc.slots) :
    Among w s.sys :=
  (slotAmong_steps (fun _ h => by cases h) (proc_steps (ainv_init fs n) h) s hs).1

/-- C84: in the whole program each piece of each torrent is in exactly one place. Missing: as in C40, pieces get lost with workers; totals that
wrap around. -/
theorem C84_one_place_partial {w : World} {Q : Info → Prop} {fs : FS} {n : Nat} {A : App} (h : ASteps w Q (App.init fs n) A) {s : Slot}
    (hs : s ∈ A.proc.slots) {info : Info} (hi : s.sys.torrent.info = some info) (hw : NoWrap w info) :
    (waiting s.sys ++ flight s.sys ++ handed s.sys ++ s.sys.lost).Perm (List.range (count info)) :=
  C40_one_place_partial (C84_among h hs) hi hw

/-- C84, including totals that do not fit in 64 bits: each piece the program reckons with is in exactly one place. -/
theorem C84_exact {w : World} {Q : Info → Prop} {fs : FS} {n : Nat} {A : App} (h : ASteps w Q (App.init fs n) A) {s : Slot}
    (hs : s ∈ A.proc.slots) {info : Info} (hi : s.sys.torrent.info = some info) :
    (waiting s.sys ++ flight s.sys ++ handed s.sys ++ s.sys.lost).Perm (List.range (wrappedCount info)) :=
  (C40_exact (C84_among h hs) hi).1

/-- C84: at most five pieces of each torrent are in flight, so at most five times the number of torrents in all. -/
theorem C84_in_flight {w : World} {Q : Info → Prop} {fs : FS} {n : Nat} {A : App} (h : ASteps w Q (App.init fs n) A) :
    (∀ s ∈ A.proc.slots, (flight s.sys).length ≤ 5) ∧ (A.proc.slots.map fun s => (flight s.sys).length).sum ≤ 5 * A.proc.slots.length := by
  have h5 : ∀ s ∈ A.proc.slots, (flight s.sys).length ≤ 5 := fun s hs => (C41_at_most_five (C84_among h hs)).1
  refine ⟨h5, ?_⟩
  generalize A.proc.slots = l at h5
  induction l with
  | nil => simp
  | cons s l ih =>
    have h1 := h5 s (List.mem_cons_self ..)
    have h2 := ih (fun s hs => h5 s (List.mem_cons_of_mem _ hs))
    simp only [List.map_cons, List.sum_cons, List.length_cons]
    omega

/-- C84: the peers of each torrent, with their counters, are exactly those it was told of, with the reports it handled since. -/
theorem C84_counters {w : World} {Q : Info → Prop} {fs : FS} {n : Nat} {A : App} (h : ASteps w Q (App.init fs n) A) {s : Slot} (hs : s ∈ A.proc.slots) :
    s.sys.torrent.peers = peersAfter s.sys.handled :=
  C47_counters (C84_among h hs)

/-- C84: when a torrent of the program has started, has nothing more to do and lost nothing, its files are as published, followed by what was beyond their
listed lengths before, whatever else the program does; so they are right exactly if no longer file was in the way. Missing: as in C81, paths and metadata
of the other torrents; a collision. -/
theorem C84_exactly_partial {w : World} {info : Info} {d : Bytes} {fs : FS} {n : Nat} {A : App} {s : Slot} (hd : Describes w.sha info d)
    (hlay : Placeable w.cwd fs (listedFiles info) d info.pieceLength) (hres : Unreserved info)
    (h : ASteps w (Beside info) (App.init fs n) A) (hs : s ∈ A.proc.slots) (hi : s.sys.torrent.info = some info)
    (hini : s.sys.torrent.initiated = true) (hf : flight s.sys = []) (hr : s.sys.ready = []) (hl : s.sys.lost = []) :
    (∃ r, (info, r) ∈ A.proc.taken ∧ Collision w.sha r.piece (piece d info.pieceLength r.idx)) ∨
    FilesOver fs A.proc.fs w.cwd (listedFiles info) d ∧ (FilesRight A.proc.fs w.cwd (listedFiles info) d ↔ NoneLonger fs w.cwd (listedFiles info)) := by
  have hc : contentLength info = d.length := by rw [contentLength_listed, hd.total]
  have hp := C43_all_handed_partial (C84_among h hs) hi (.inr (by rw [hc]; exact hlay.small)) hini hl hf
  refine C81_exactly_partial hd hlay hres h hs hi (fun i hi' => ?_) (.refl _)
  have hm : i ∈ handed s.sys := hp.mem_iff.mpr (List.mem_range.mpr (by rw [count, hc]; exact hi'))
  rw [handed, hr] at hm
  simpa using hm

/-- C84: when a torrent of the program has started, has nothing more to do and lost nothing, and there was room for them, its files are right, whatever
else the program does. Missing: as in C81, paths and metadata of the other torrents; a collision. -/
theorem C84_files_partial {w : World} {info : Info} {d : Bytes} {fs : FS} {n : Nat} {A : App} {s : Slot} (hd : Describes w.sha info d)
    (hlay : Layout w.cwd fs (listedFiles info) d info.pieceLength) (hres : Unreserved info)
    (h : ASteps w (Beside info) (App.init fs n) A) (hs : s ∈ A.proc.slots) (hi : s.sys.torrent.info = some info)
    (hini : s.sys.torrent.initiated = true) (hf : flight s.sys = []) (hr : s.sys.ready = []) (hl : s.sys.lost = []) :
    (∃ r, (info, r) ∈ A.proc.taken ∧ Collision w.sha r.piece (piece d info.pieceLength r.idx)) ∨ FilesRight A.proc.fs w.cwd (listedFiles info) d :=
  (C84_exactly_partial hd hlay.placeable hres h hs hi hini hf hr hl).imp_right fun h => over_layout hlay h.1

/-- Non-vacuity: in every world, from an empty disk, the torrent of three bytes gets there. -/
theorem program_done (w : World) (hsha : ∀ b, (w.sha b).length = 20) : ∃ A s, ASteps w (Beside (threeBytes w.sha)) (App.init (fun _ => none) 1) A ∧ s ∈ A.proc.slots ∧
    s.sys.torrent.info = some (threeBytes w.sha) ∧ s.sys.torrent.initiated = true ∧ flight s.sys = [] ∧ s.sys.ready = [] ∧ s.sys.lost = [] := by
  obtain ⟨fs', h1, h2, h3⟩ := started w (Beside (threeBytes w.sha)) (fs := fun _ => none) 1 (by simp)
  have hascii : InfoAscii (threeBytes w.sha) := ⟨ascii_of_lit rfl, by intro fs h; cases h⟩
  have ha : fs' (w.cwd ++ [b!"a"]) = none := h3 _ (other_name (by decide) [])
  obtain ⟨A', s, g1, -, g3, -, g5, g6, g7, g8, -, g9, -⟩ := C82_can_finish_partial (md := (threeBytes w.sha).encode) (thread := 0) h1 (.inl rfl) hsha (by simp) init_up
    (by show 0 < 1; decide) (by simp) (add1 w.build) (by decide) ⟨.inr (h3 _ (other_name (by decide) [])), h3 _ (other_name (by decide) _)⟩
    (isBencode_info _ hascii) ⟨by show 1 < 2 ^ 64; decide, by simp [threeBytes, hsha], by show 2 < 2 ^ 64; decide, by intro n h; cases h; decide, by intro fs h; cases h⟩
    ⟨by show b!"a" ≠ [] ∧ validUtf8 b!"a" = true; decide +kernel, by
      intro h
      have := congrArg List.length h
      simp [threeBytes, hsha] at this, by intro fs h; cases h⟩
    (by rw [threeBytes_encode hsha]; simp [hsha])
    (threeBytes_describes hsha) ⟨by decide, by show pieceCount 3 2 ≤ 2 ^ 32; decide, by show 2 * pieceCount 3 2 < 2 ^ 64; decide⟩ (by decide)
    (small_layout w.sha 1 2 3 ((threeBytes_layout_empty w).plain _ (List.mem_singleton.mpr rfl)) (by show fs' _ ≠ _; rw [ha]; simp) (fun c hc => absurd (ha.symm.trans hc) (by simp)))
    (by intro f hf; rw [List.mem_singleton.mp hf]; show some b!"a" ≠ some b!"downloads"; decide)
  have hm := List.mem_of_getElem? g3
  refine ⟨A', s, h1.trans g1.steps, hm, g5, ?_, g6, g8, g7⟩
  obtain ⟨n, hk⟩ := among_known (C84_among (h1.trans g1.steps) hm) g5
  cases hi : s.sys.torrent.initiated with
  | true => rfl
  | false =>
    obtain ⟨-, e, -⟩ := hk.idle hi
    have := g9 0 (by show 0 < pieceCount 3 2; decide)
    rw [handed, List.map_append, List.append_eq_nil_iff] at e
    rw [e.1] at this
    cases this

/-- Without room for the files C84 is false, in every world: on a disk with a longer file in the place of the torrent's, the program can finish the torrent,
with nothing lost, and the file still has the tail of the longer one. (Also the non-vacuity of `C82_cached_over_partial`, `C69_over_partial`,
`C81_exactly_partial` and `C84_exactly_partial`.) -/
theorem C84_refuted_longer (w : World) (hsha : ∀ b, (w.sha b).length = 20) : ∃ fs A s, Placeable w.cwd fs (listedFiles (threeBytes w.sha)) [1, 2, 3] 2 ∧
    Unreserved (threeBytes w.sha) ∧ ASteps w (Beside (threeBytes w.sha)) (App.init fs 1) A ∧ s ∈ A.proc.slots ∧ s.sys.torrent.info = some (threeBytes w.sha) ∧
    flight s.sys = [] ∧ s.sys.ready = [] ∧ s.sys.lost = [] ∧ (∀ i, i < 2 → i ∈ s.sys.written.map Ready.idx) ∧
    readFile A.proc.fs (w.cwd ++ [b!"a"]) = some [1, 2, 3, 7] ∧ ¬ FilesRight A.proc.fs w.cwd (listedFiles (threeBytes w.sha)) [1, 2, 3] := by
  have hpl := longerFs_placeable w (List.replicate 20 17)
  have hat : longerFs w.cwd (List.replicate 20 17) (threeBytes w.sha) (w.cwd ++ [b!"a"]) = some (.file [9, 9, 9, 7]) := if_pos rfl
  have hlog : longerFs w.cwd (List.replicate 20 17) (threeBytes w.sha) (w.cwd ++ [b!"test.log"]) = none := by
    rw [longerFs, FS.set, if_neg (other_name (by decide) []), cachedFs, if_neg (other_name (by decide) []), if_neg]
    intro e
    have := congrArg List.length e
    simp [cacheLoc] at this
  obtain ⟨fs', h1, h2, h3⟩ := started w (Beside (threeBytes w.sha)) (fs := longerFs w.cwd (List.replicate 20 17) (threeBytes w.sha)) 1 (by rw [hlog]; simp)
  have hc := longerFs_cached w (List.replicate 20 17)
  have hat' : fs' (w.cwd ++ [b!"a"]) = some (.file [9, 9, 9, 7]) := by rw [h3 _ (other_name (by decide) [])]; exact hat
  have hpl' : Placeable w.cwd fs' (listedFiles (threeBytes w.sha)) [1, 2, 3] 2 := by
    refine ⟨hpl.plain, hpl.separate, ?_, hpl.length, hpl.small, hpl.pieceLength⟩
    intro f hf
    rw [List.mem_singleton.mp hf]
    refine ⟨?_, by show fs' (w.cwd ++ [b!"a"]) ≠ _; rw [hat']; simp⟩
    intro q c hq hne hnil
    have hq : q <+: [b!"a"] := hq
    rw [List.prefix_cons_iff] at hq
    rcases hq with rfl | ⟨q', rfl, hq'⟩
    · exact absurd rfl hnil
    · rw [List.prefix_nil] at hq'
      subst hq'
      exact absurd rfl hne
  have hres : Unreserved (threeBytes w.sha) := by
    intro f hf
    rw [List.mem_singleton.mp hf]
    show some b!"a" ≠ some b!"downloads" ∧ some b!"a" ≠ some b!"test.log"
    decide
  obtain ⟨A', s, g1, -, g2, -, g3, g4, g5, g6, -, g7, g8, -⟩ := C82_cached_over_partial (info := threeBytes w.sha) (thread := 0) h1 (.inl rfl) hsha (by simp) init_up
    (by show 0 < 1; decide) (by simp) (add1 w.build)
    ⟨(h3 _ (other_name (by decide) [])).trans hc.1, by show readFile fs' _ = _; rw [readFile, h3 (cacheLoc w.cwd (List.replicate 20 17)) (other_name (by decide) _)]; exact hc.2⟩
    (threeBytes_typed _) (threeBytes_describes hsha) ⟨by decide, by show pieceCount 3 2 ≤ 2 ^ 32; decide, by show 2 * pieceCount 3 2 < 2 ^ 64; decide⟩ (by decide)
    hpl' (fun f hf => (hres f hf).1)
  have hf := g8 0 ⟨[b!"a"], 3⟩ rfl (by decide)
  rw [show readFile fs' (w.cwd ++ [b!"a"]) = some [9, 9, 9, 7] by rw [readFile, hat']] at hf
  have hf : readFile A'.proc.fs (w.cwd ++ [b!"a"]) = some [1, 2, 3, 7] := hf
  refine ⟨_, A', s, hpl, hres, h1.trans g1.steps, List.mem_of_getElem? g2, g3, g4, g6, g5, fun i hi => g7 i (show i < pieceCount 3 2 from hi), hf, fun hr => ?_⟩
  have : readFile A'.proc.fs (w.cwd ++ [b!"a"]) = some [1, 2, 3] := hr 0 ⟨[b!"a"], 3⟩ rfl (by decide)
  rw [hf] at this
  exact absurd this (by decide)

end RustBit
