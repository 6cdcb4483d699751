/-
C94: the log file.
-/
import Verif.Proofs.Race
import Verif.Props.Process

namespace Spec
open RustBit

/-- None of the listed files is the log file, or below it, or outside the working directory. -/
def OffLog (info : Info) : Prop := ∀ f ∈ listedFiles info, Inward (joinPath f.path) ∧ ¬ [b!"test.log"] <+: names (joinPath f.path)

end Spec

namespace RustBit
open Spec

/-- A torrent of the process that leaves the log file alone. -/
def LogSlot (w : World) (s : Slot) : Prop :=
  (Fresh s.sys ∧ 2 < s.sys.torrent.infoHash.length ∧ s.parts = none) ∨
  ∃ info n, Known w info n s.sys ∧ OffLog info ∧ ∀ ws, s.parts = some ws → ∀ x ∈ ws, ∃ f ∈ listedFiles info, f.path = x.path

/-- The log file holds what has been said, and the position is at its end. -/
structure LogInv (w : World) (P : Proc) : Prop where
  slots : ∀ s ∈ P.slots, LogSlot w s
  file : (P.log = none ∧ P.said = []) ∨
    (P.fs (w.cwd ++ [b!"test.log"]) = some (.file P.said.flatten) ∧ ∀ n, P.log = some n → n = P.said.flatten.length)

theorem logInv_same {w : World} {P P' : Proc} (h : LogInv w P) (hs : ∀ s ∈ P'.slots, LogSlot w s) (hl : P'.log = P.log ∨ P'.log = none)
    (hsaid : P'.said = P.said) (hfs : P'.fs (w.cwd ++ [b!"test.log"]) = P.fs (w.cwd ++ [b!"test.log"])) : LogInv w P' := by
  refine ⟨hs, ?_⟩
  rw [hsaid, hfs]
  rcases h.file with ⟨h1, h2⟩ | ⟨h1, h2⟩
  · refine .inl ⟨?_, h2⟩
    rcases hl with hl | hl
    · rw [hl, h1]
    · exact hl
  · refine .inr ⟨h1, fun n hn => h2 n ?_⟩
    rcases hl with hl | hl
    · rw [← hl, hn]
    · rw [hl] at hn; cases hn

theorem logSlots_set {w : World} {P : Proc} {k : Nat} {s' : Slot} (h : LogInv w P) (hs : LogSlot w s') : ∀ s ∈ P.slots.set k s', LogSlot w s := by
  intro s hm
  rcases List.mem_or_eq_of_mem_set hm with hm | rfl
  · exact h.slots s hm
  · exact hs

/-- Writing a part of a torrent that leaves the log file alone. -/
theorem part_log {w : World} {fs : FS} {s : Slot} (h : LogSlot w s) {x : FileWriter} {xs : List FileWriter} (hp : s.parts = some (x :: xs)) :
    (x.writeToFilesystem w.cwd fs : Res Unit Unit × FS).2 (w.cwd ++ [b!"test.log"]) = fs (w.cwd ++ [b!"test.log"]) ∧
    ∀ fs', TornPart w.cwd fs x fs' → fs' (w.cwd ++ [b!"test.log"]) = fs (w.cwd ++ [b!"test.log"]) := by
  rcases h with ⟨-, -, e⟩ | ⟨info, n, hk, hoff, hpaths⟩
  · rw [hp] at e; cases e
  obtain ⟨f, hf, e⟩ := hpaths _ hp x (by simp)
  obtain ⟨hin, hno⟩ := hoff f hf
  rw [e] at hin hno
  have key : ∀ y : FileWriter, y.path = x.path →
      (y.writeToFilesystem w.cwd fs : Res Unit Unit × FS).2 (w.cwd ++ [b!"test.log"]) = fs (w.cwd ++ [b!"test.log"]) := by
    intro y hy
    rw [← hy] at hin hno
    refine Classical.byContradiction fun hne => ?_
    rcases writeToFilesystem_touch hin _ hne with ⟨-, q, -, hq, -, e'⟩ | e'
    · rw [List.append_cancel_left e'] at hno
      exact hno hq
    · rw [List.append_cancel_left e'] at hno
      exact hno (List.prefix_refl _)
  refine ⟨key x rfl, fun fs' ht => ?_⟩
  cases ht with
  | data n => exact key _ rfl
  | dirs k hk' =>
    have ha : (PathBuf.parse (joinPath x.path)).absolute = false := by simpa [PathBuf.parse] using hin.1
    have hc : b!".." ∉ (PathBuf.parse (joinPath x.path)).comps := by
      simp only [PathBuf.parse]
      intro y
      exact hin.2 (List.mem_filter.mp y).1
    have hb : (PathBuf.parse (joinPath x.path)).base w.cwd = w.cwd := by simp [PathBuf.base, ha]
    rw [hb]
    refine Classical.byContradiction fun hne => ?_
    obtain ⟨-, q, -, hq, e'⟩ := createDirAll_made (fun y => hc (List.mem_of_mem_take y)) fs _ hne
    rw [List.append_cancel_left e'] at hno
    exact hno (hq.trans (List.take_prefix _ _))

theorem torn_log {w : World} {slots : List Slot} {fs fs' : FS} (ht : TornAll w.cwd fs slots fs') (h : ∀ s ∈ slots, LogSlot w s) :
    fs' (w.cwd ++ [b!"test.log"]) = fs (w.cwd ++ [b!"test.log"]) := by
  induction ht with
  | nil => rfl
  | skip _ ih => exact ih (fun s hs => h s (List.mem_cons_of_mem _ hs))
  | part hx h1 _ ih =>
    rw [ih (fun s hs => h s (List.mem_cons_of_mem _ hs))]
    exact (part_log (h _ (List.mem_cons_self ..)) hx).2 _ h1

theorem act_log {w : World} {fs : FS} {s : Slot} {t : Sys} (h : LogSlot w s) (hst : Step w { s.sys with fs := fs } t) (hw : t.written = s.sys.written) :
    t.fs (w.cwd ++ [b!"test.log"]) = fs (w.cwd ++ [b!"test.log"]) := by
  cases hst with
  | collect p rest hd hm hi tcp f peerId room collected fs' hnh hc =>
    have hlen : 2 < s.sys.torrent.infoHash.length := by
      rcases h with h | ⟨info, n, hk, -⟩
      · exact h.2.1
      · have := hk.hasInfo
        rw [hi] at this
        cases this
    have := collectInfo_below (ε := Unit) w.build w.cwd fs (dialOf p.endpoint tcp) f peerId hlen room
    rw [hc] at this
    refine Classical.byContradiction fun hne => ?_
    have := this _ hne
    rw [List.prefix_append_right_inj] at this
    exact absurd this (by decide)
  | write r ready hu hr res fs' hwr =>
    have := congrArg List.length hw
    simp at this
  | announce => rfl
  | take => rfl
  | finishOk => rfl
  | finishErr => rfl
  | finishPanic => rfl
  | success => rfl
  | failed => rfl
  | found => rfl

theorem createLog_empty {cwd : Loc} {fs fs' : FS} (h : createLog cwd fs = .ok fs') : fs' (cwd ++ [b!"test.log"]) = some (.file []) := by
  have hd : fs (cwd ++ [b!"test.log"]) ≠ some .dir := by
    intro hd
    have e : logPath = ⟨false, [b!"test.log"], false⟩ := by decide +kernel
    unfold createLog FS.openCreate at h
    rw [e] at h
    simp [hasNul, PathBuf.base, FS.walk, hd] at h
  obtain ⟨fs1, h1, h2, -⟩ := createLog_ok hd
  rw [h] at h1
  cases h1
  exact h2

theorem logInv_step {w : World} {P P' : Proc} (h : LogInv w P) (hst : PStep w P P')
    (hq : ∀ s ∈ P'.slots, ∀ i, s.sys.torrent.info = some i → OffLog i) : LogInv w P' := by
  cases hst with
  | start hl fs he => exact ⟨h.slots, .inr ⟨createLog_empty he, fun n hn => by cases hn; rfl⟩⟩
  | log n hl line =>
    refine ⟨h.slots, ?_⟩
    rcases h.file with ⟨h1, -⟩ | ⟨h1, h2⟩
    · rw [h1] at hl; cases hl
    · right
      have hn := h2 n hl
      refine ⟨?_, fun n' hn' => ?_⟩
      · show P.fs.writeAt (w.cwd ++ logPath.comps) n line _ = _
        rw [logPath_comps, writeAt_file _ _ h1, FS.set, if_pos rfl, hn, List.flatten_append, List.flatten_singleton]
        have hpw : pwrite P.said.flatten P.said.flatten.length line = P.said.flatten ++ line := by
          unfold pwrite
          by_cases e : line = []
          · simp [e]
          · rw [if_neg e, List.take_length, Nat.sub_self, List.replicate_zero, List.append_nil, List.drop_of_length_le (by omega), List.append_nil]
        rw [hpw]
      · simp only [Option.some.injEq] at hn'
        simp only [List.flatten_append, List.flatten_singleton, List.length_append]
        omega
  | add hl body infoHash ha =>
    refine logInv_same h ?_ (.inl rfl) rfl rfl
    intro s hs
    rcases List.mem_append.mp hs with hs | hs
    · exact h.slots s hs
    · rw [List.mem_singleton.mp hs]
      refine .inl ⟨fresh_init _ _, ?_, rfl⟩
      have := addMagnet_length ha
      show 2 < infoHash.length
      omega
  | act k s t hk hst hw =>
    have hmem := List.mem_of_getElem? hk
    have hs := h.slots s hmem
    have hlt : k < P.slots.length := (List.getElem?_eq_some_iff.mp hk).1
    have hmem' : (⟨t, s.parts⟩ : Slot) ∈ P.slots.set k ⟨t, s.parts⟩ := List.mem_set hlt _
    refine logInv_same h (logSlots_set h ?_) (.inl rfl) rfl (act_log hs hst hw)
    obtain ⟨-, a2, -⟩ := act_writer hst hw
    rcases hs with ⟨h1, h2, h3⟩ | ⟨info, n, h1, h2, h3⟩
    · rcases fresh_step (fresh_fs h1 P.fs) hst with hf | ⟨info, n, hk'⟩
      · exact .inl ⟨hf, by rw [a2]; exact h2, h3⟩
      · refine .inr ⟨info, n, hk', hq _ hmem' _ hk'.hasInfo, ?_⟩
        intro ws hws
        simp only [h3] at hws
        cases hws
    · exact .inr ⟨info, n, known_step (known_fs h1 P.fs) hst, h2, h3⟩
  | begin k s r ready info ws hk hp hu hr hi hws =>
    refine logInv_same h (logSlots_set h ?_) (.inl rfl) rfl rfl
    rcases h.slots s (List.mem_of_getElem? hk) with ⟨h1, -⟩ | ⟨info', n, h1, h2, h3⟩
    · rw [h1.info] at hi; cases hi
    · refine .inr ⟨info', n, h1, h2, ?_⟩
      intro ws' hws'
      cases hws'
      exact paths_listed h1 hr hws
  | beginCrash k s r ready info hk hp hu hr hi hws =>
    refine logInv_same h (logSlots_set h ?_) (.inl rfl) rfl rfl
    rcases h.slots s (List.mem_of_getElem? hk) with ⟨h1, -⟩ | ⟨info', n, h1, h2, h3⟩
    · rw [h1.info] at hi; cases hi
    · exact .inr ⟨info', n, known_write h1 hr s.sys.fs false, h2, fun ws' hws' => by cases hws'⟩
  | part k s x xs fs hk hp hwr =>
    have hmem := List.mem_of_getElem? hk
    have hfs := (part_log (fs := P.fs) (h.slots s hmem) hp).1
    rw [hwr] at hfs
    refine logInv_same h (logSlots_set h ?_) (.inl rfl) rfl hfs
    rcases h.slots s hmem with ⟨-, -, e⟩ | ⟨info', n, h1, h2, h3⟩
    · rw [hp] at e; cases e
    · refine .inr ⟨info', n, h1, h2, ?_⟩
      intro ws hws y hy
      cases hws
      exact h3 _ hp y (List.mem_cons_of_mem _ hy)
  | partCrash k s x xs fs r ready hk hp hr hwr =>
    have hmem := List.mem_of_getElem? hk
    have hfs := (part_log (fs := P.fs) (h.slots s hmem) hp).1
    rw [hwr] at hfs
    refine logInv_same h (logSlots_set h ?_) (.inl rfl) rfl hfs
    rcases h.slots s hmem with ⟨-, -, e⟩ | ⟨info', n, h1, h2, h3⟩
    · rw [hp] at e; cases e
    · exact .inr ⟨info', n, known_write h1 hr s.sys.fs false, h2, fun ws' hws' => by cases hws'⟩
  | «end» k s r ready hk hp hr =>
    have hmem := List.mem_of_getElem? hk
    refine logInv_same h (logSlots_set h ?_) (.inl rfl) rfl rfl
    rcases h.slots s hmem with ⟨-, -, e⟩ | ⟨info', n, h1, h2, h3⟩
    · rw [hp] at e; cases e
    · exact .inr ⟨info', n, known_write h1 hr s.sys.fs true, h2, fun ws' hws' => by cases hws'⟩
  | stop order ho fs ht =>
    exact logInv_same h (fun s hs => by cases hs) (.inr rfl) rfl (torn_log ht (fun s hs => h.slots s (ho.mem_iff.mp hs)))

theorem logInv_steps {w : World} {P P' : Proc} (h : LogInv w P) (hst : PSteps w OffLog P P') : LogInv w P' := by
  induction hst with
  | refl => exact h
  | tail _ hst hq ih => exact logInv_step ih hst hq

/-! ### C94 -/

/-- C94: while the process runs, and after it has been stopped at whatever moment, the log file is exactly what has been logged since the last
start, in order. Missing: torrents with a file in the place of the log file or outside the working directory, and what was logged before the
last start (both refuted below). -/
theorem C94_log_partial {w : World} {fs : FS} {P : Proc} (hst : PSteps w OffLog (Proc.init fs) P) (h : P.log ≠ none ∨ P.said ≠ []) :
    readFile P.fs (w.cwd ++ [b!"test.log"]) = some P.said.flatten ∧ ∀ n, P.log = some n → n = P.said.flatten.length := by
  have hi : LogInv w P := logInv_steps ⟨fun s (hs : s ∈ []) => (by cases hs), .inl ⟨rfl, rfl⟩⟩ hst
  rcases hi.file with ⟨h1, h2⟩ | ⟨h1, h2⟩
  · rcases h with h | h
    · exact absurd h1 h
    · exact absurd h2 h
  · exact ⟨by rw [readFile, h1], h2⟩

/-- A process that logs some lines, and the disk it leaves if it is stopped then. -/
theorem log_lines {w : World} {Q : Info → Prop} (lines : List Bytes) : ∀ (P : Proc) (n : Nat), P.log = some n → P.slots = [] →
    ∃ P', PSteps w Q P P' ∧ P'.said = P.said ++ lines ∧ P'.slots = [] ∧ P'.log ≠ none := by
  induction lines with
  | nil => intro P n hl hs; exact ⟨P, .refl _, by simp, hs, by rw [hl]; simp⟩
  | cons l ls ih =>
    intro P n hl hs
    have st := PStep.log (w := w) P n hl l
    obtain ⟨P', h1, h2, h3, h4⟩ := ih { P with fs := P.fs.writeAt (w.cwd ++ logPath.comps) n l, log := some (n + l.length), said := P.said ++ [l] } (n + l.length) rfl hs
    refine ⟨P', (PSteps.tail (.refl _) st ?_).trans h1, by rw [h2]; simp, h3, h4⟩
    intro s hs'
    rw [show _ = P.slots from rfl, hs] at hs'
    cases hs'

/-- Non-vacuity of `C94_log_partial`: any lines can be logged, and are then in the file. -/
example (w : World) (lines : List Bytes) : ∃ P, PSteps w OffLog (Proc.init (fun _ => none)) P ∧ P.log ≠ none ∧ P.said = lines ∧
    readFile P.fs (w.cwd ++ [b!"test.log"]) = some lines.flatten := by
  obtain ⟨fs1, l1, l2, -⟩ := createLog_ok (cwd := w.cwd) (fs := fun _ => none) (by simp)
  have st := PStep.start (w := w) (Proc.init (fun _ => none)) rfl fs1 l1
  obtain ⟨P, h1, h2, -, h4⟩ := log_lines (w := w) (Q := OffLog) lines { Proc.init (fun _ => none) with fs := fs1, log := some 0, said := [] } 0 rfl rfl
  have hst := (PSteps.tail (Q := OffLog) (.refl _) st (fun s hs => by cases hs)).trans h1
  have e : P.said = lines := by rw [h2]; rfl
  refine ⟨P, hst, h4, e, ?_⟩
  rw [(C94_log_partial hst (.inl h4)).1, e]

/-- The full C94 is false: whatever has been logged is gone when the program is started again. -/
theorem C94_refuted_restart (w : World) (lines : List Bytes) : ∃ P P', PSteps w (fun _ => False) (Proc.init (fun _ => none)) P ∧ P.said = lines ∧
    readFile P.fs (w.cwd ++ [b!"test.log"]) = some lines.flatten ∧ PSteps w (fun _ => False) P P' ∧ P'.log ≠ none ∧
    readFile P'.fs (w.cwd ++ [b!"test.log"]) = some [] := by
  obtain ⟨fs1, l1, l2, -⟩ := createLog_ok (cwd := w.cwd) (fs := fun _ => none) (by simp)
  have st := PStep.start (w := w) (Proc.init (fun _ => none)) rfl fs1 l1
  obtain ⟨P, h1, h2, h3, h4⟩ := log_lines (w := w) (Q := fun _ => False) lines { Proc.init (fun _ => none) with fs := fs1, log := some 0, said := [] } 0 rfl rfl
  have hst := (PSteps.tail (Q := fun _ => False) (.refl _) st (fun s hs => by cases hs)).trans h1
  have hst' : PSteps w OffLog (Proc.init (fun _ => none)) P := by
    clear h1 h2 h3 h4
    induction hst with
    | refl => exact .refl _
    | tail _ hst hq ih => exact .tail ih hst (fun s hs i hi => (hq s hs i hi).elim)
  have e : P.said = lines := by rw [h2]; rfl
  have hf := (C94_log_partial hst' (.inl h4)).1
  have s1 := PStep.stop (w := w) P P.slots (.refl _) P.fs (torn_none _ _ _)
  obtain ⟨fs2, k1, k2, -⟩ := createLog_ok (cwd := w.cwd) (fs := P.fs) (by intro hd; rw [readFile, hd] at hf; cases hf)
  have s2 := PStep.start (w := w) { P with slots := [], fs := P.fs, log := none } rfl fs2 k1
  exact ⟨P, _, hst, e, by rw [hf, e], .tail (.tail (.refl _) s1 (fun s hs => by cases hs)) s2 (fun s hs => by cases hs), by simp, by show readFile fs2 _ = _; rw [readFile, k2]⟩

/-- The full C94 is false: the file of a torrent called `test.log` is written over the log, by a process that has logged nothing. -/
theorem C94_refuted_torrent (w : World) (hsha : ∀ b, (w.sha b).length = 20) : ∃ fs P, PSteps w (fun _ => True) (Proc.init fs) P ∧ P.log ≠ none ∧
    P.said = [] ∧ readFile P.fs (w.cwd ++ [b!"test.log"]) = some [1, 2, 3] := by
  have hp : Plain [b!"test.log"] := ⟨by simp, by
    intro c hc
    rw [List.mem_singleton.mp hc]
    decide⟩
  obtain ⟨P, t, p1, p2, -, -, -, p6, -⟩ := first_finished hsha b!"test.log" 1 2 3 (small w.sha b!"test.log" 1 2 3) hp (by decide +kernel) (by decide)
    (Q := fun _ => True) trivial
  exact ⟨_, P, p1, by rw [p2.1]; simp, p2.2, p6⟩

end RustBit
