/-
C68 for the whole program, and C103: a torrent that is added twice.
-/
import Verif.Proofs.CacheKept

namespace RustBit
open Spec

theorem ASteps.mono {w : World} {Q Q' : Info → Prop} {A A' : App} (hQ : ∀ i, Q i → Q' i) (h : ASteps w Q A A') : ASteps w Q' A A' := by
  induction h with
  | refl => exact .refl _
  | tail _ hs hq ih => exact .tail ih hs fun s hs i hi => hQ i (hq s hs i hi)

/-! ### C68 -/

/-- C68, for the whole program: metadata that is complete in the cache stays as it is, whatever happens to the program, its torrents and its peers, and
through any number of restarts; and if the torrents with this info hash have no other metadata now, none ever will. Missing: metadata with files in
`downloads` or outside of the working directory (`C68_refuted`). -/
theorem C68_program_partial {w : World} {fs : FS} {n : Nat} {A A' : App} {infoHash : Bytes} {info : Info}
    (h : ASteps w LeavesCache (App.init fs n) A) (ht : Typed info) (hc : Cached A.proc.fs w.cwd infoHash info) (h' : ASteps w LeavesCache A A') :
    Cached A'.proc.fs w.cwd infoHash info ∧
    ((∀ s ∈ A.proc.slots, s.sys.torrent.infoHash = infoHash → ∀ i, s.sys.torrent.info = some i → i = info) →
      ∀ s ∈ A'.proc.slots, s.sys.torrent.infoHash = infoHash → ∀ i, s.sys.torrent.info = some i → i = info) := by
  have hinv := ainv_steps h (ainv_init fs n)
  obtain ⟨h1, h2⟩ := tidy_steps (w := w) (P := Proc.init fs) (fun s hs => by cases hs) (fun s hs => by cases hs) (proc_steps (ainv_init fs n) h)
  exact kept_steps h1 h2 ht hc (proc_steps hinv h')

/-- C68: if the metadata is in the cache when the program is started for the first time, all torrents with this info hash that are ever started use it.
Missing: as above. -/
theorem C68_used_partial {w : World} {fs : FS} {n : Nat} {A : App} {infoHash : Bytes} {info : Info} (ht : Typed info) (hc : Cached fs w.cwd infoHash info)
    (h : ASteps w LeavesCache (App.init fs n) A) {s : Slot} (hs : s ∈ A.proc.slots) (hh : s.sys.torrent.infoHash = infoHash) {i : Info}
    (hi : s.sys.torrent.info = some i) : i = info :=
  (C68_program_partial (.refl _) ht hc h).2 (fun s hs => by cases hs) s hs hh i hi

theorem threeBytes_leaves (sha : Bytes → Bytes) : LeavesCache (threeBytes sha) := by
  intro f hf
  rw [List.mem_singleton.mp hf]
  show OutsideCache [b!"a"]
  exact ⟨⟨by decide, by decide +kernel⟩, by decide +kernel⟩

/-! ### C103 -/

/-- The info hashes of the torrents that run, in the order in which they were started. -/
def App.hashes (A : App) : List Bytes := A.proc.slots.map fun s => s.sys.torrent.infoHash

theorem hashes_added {A : App} (h : AInv A) : A.hashes = A.trackers.added.map Registered.infoHash := by
  apply List.ext_getElem?
  intro k
  rw [App.hashes, List.getElem?_map, List.getElem?_map, h.added k, Option.map_map]
  rfl

/-- C103, exactly: while the program runs, the torrents it runs change by requests alone, and each request that is accepted starts another torrent, whatever
torrents there are already. -/
theorem C103_requests {w : World} {Q : Info → Prop} {fs : FS} {n : Nat} {A A' : App} (h : ASteps w Q (App.init fs n) A) (hr : A.proc.log ≠ none)
    (hr' : A'.proc.log ≠ none) (hs : AStep w A A') :
    A'.hashes = A.hashes ∨ ∃ body infoHash, addMagnet w.build body = (.ok, some infoHash) ∧ A'.hashes = A.hashes ++ [infoHash] := by
  have hinv := ainv_steps h (ainv_init fs n)
  have e1 := hashes_added hinv
  have e2 := hashes_added (ainv_step hinv hs)
  cases hs with
  | start hl => exact absurd hl hr
  | work => exact .inl (e2.trans e1.symm)
  | add hl body infoHash ha thread hb hf T' ht hadd =>
    refine .inr ⟨body, infoHash, ha, ?_⟩
    rw [e2, e1]
    simp only [hadd, List.map_append, List.map_cons, List.map_nil]
  | track hl T' ht ha =>
    refine .inl ?_
    rw [e2, e1]
    simp only [ha]
  | deliver => exact .inl (e2.trans e1.symm)
  | stick => exact .inl (e2.trans e1.symm)
  | stop P' hp hl => exact absurd hl hr'

/-- C103, the other half: as long as a thread is not stuck, every request with an acceptable link can be followed by a state with one torrent more. -/
theorem C103_refuted_started {w : World} {A : App} (hr : A.proc.log ≠ none) {thread : Nat} (hb : thread < A.threads) (hf : thread ∉ A.stuck) {body infoHash : Bytes}
    (ha : addMagnet w.build body = (.ok, some infoHash)) : ∃ A', AStep w A A' ∧ A'.hashes = A.hashes ++ [infoHash] := by
  have st1 := AStep.add (w := w) A hr body infoHash ha thread hb hf _ (.add A.trackers ⟨infoHash, A.proc.slots.length⟩) rfl
  refine ⟨_, st1, ?_⟩
  simp only [App.hashes, List.map_append, List.map_cons, List.map_nil]
  rfl

/-- C103 is refuted, for every torrent: if a torrent has been downloaded completely and is added again while the program runs, it can be downloaded completely
once more: in the end two torrents with the same info hash have each got all pieces from peers and have written them to the same files. -/
theorem C103_refuted {w : World} {Q : Info → Prop} {fs : FS} {n : Nat} {A : App} {info : Info} {d body infoHash : Bytes} {thread j : Nat} {x : Slot}
    (hrun : ASteps w Q (App.init fs n) A) (hQ : Q info) (hsha : ∀ b, (w.sha b).length = 20)
    (hlog : A.proc.log ≠ none) (hup : ∃ t ∈ A.trackers.trackers, t.up = true) (hb : thread < A.threads) (hf : thread ∉ A.stuck)
    (ha : addMagnet w.build body = (.ok, some infoHash)) (hc : Cached A.proc.fs w.cwd infoHash info) (ht : Typed info)
    (hd : Describes w.sha info d) (hfit : Fits info d) (hpos : 0 < d.length) (hlay : Placeable w.cwd A.proc.fs (listedFiles info) d info.pieceLength)
    (hdl : ∀ f ∈ listedFiles info, f.path.head? ≠ some b!"downloads")
    (hj : A.proc.slots[j]? = some x) (hx : x.sys.torrent.infoHash = infoHash)
    (hall : ∀ i, i < pieceCount d.length info.pieceLength → i ∈ x.sys.written.map Ready.idx) :
    ∃ A' y s, ASteps w Q A A' ∧ A'.proc.log = A.proc.log ∧ A'.proc.slots[j]? = some y ∧ A'.proc.slots[A.proc.slots.length]? = some s ∧
      j ≠ A.proc.slots.length ∧ y.sys.torrent.infoHash = infoHash ∧ s.sys.torrent.infoHash = infoHash ∧
      ∀ i, i < pieceCount d.length info.pieceLength → i ∈ y.sys.written.map Ready.idx ∧ i ∈ s.sys.written.map Ready.idx := by
  obtain ⟨A', s, h1, h2, h3, h4, h5, h6, h7, h8, h9, h10, h11, hothers, -⟩ := can_request (ainv_steps hrun (ainv_init fs n))
    (holds_steps hrun (fun x hx => by cases hx)) hQ hsha hlog hup hb hf ha (.inr ⟨hc, ht⟩) hd hfit hpos hlay hdl
  obtain ⟨y, l, g1, -, fs', g2⟩ := hothers j x hj
  have hlt := (List.getElem?_eq_some_iff.mp hj).1
  refine ⟨A', y, s, h1.steps, h2, g1, h3, by omega, ?_, h4, fun i hi => ⟨?_, h10 i hi⟩⟩
  · rw [g2]; exact hx
  · rw [g2]; exact hall i hi

/-- C68 and C103 are not vacuous: in every world, with the metadata of the torrent of three bytes in the cache, two requests can lead to two torrents with the
same hash which have both downloaded all of it; the cache is as it was. -/
example (w : World) (hsha : ∀ b, (w.sha b).length = 20) :
    ∃ A j y s, ASteps w LeavesCache (App.init (cachedFs w.cwd (List.replicate 20 17) (threeBytes w.sha)) 1) A ∧
      0 ≠ j ∧ A.proc.slots[0]? = some y ∧ A.proc.slots[j]? = some s ∧ y.sys.torrent.infoHash = List.replicate 20 17 ∧ s.sys.torrent.infoHash = List.replicate 20 17 ∧
      (∀ i, i < 2 → i ∈ y.sys.written.map Ready.idx ∧ i ∈ s.sys.written.map Ready.idx) ∧
      Cached A.proc.fs w.cwd (List.replicate 20 17) (threeBytes w.sha) := by
  have hother : ∀ c, c ≠ b!"downloads" → cachedFs w.cwd (List.replicate 20 17) (threeBytes w.sha) (w.cwd ++ [c]) = none := by
    intro c hc
    have e1 : w.cwd ++ [c] ≠ w.cwd ++ [b!"downloads"] := other_name hc []
    have e2 : w.cwd ++ [c] ≠ cacheLoc w.cwd (List.replicate 20 17) := by
      intro e
      have := congrArg List.length e
      simp [cacheLoc] at this
    rw [cachedFs, if_neg e1, if_neg e2]
  have hc0 := cachedFs_cached w.cwd (List.replicate 20 17) (threeBytes w.sha)
  have ht := threeBytes_typed w.sha
  have hQ := threeBytes_leaves w.sha
  have hfit : Fits (threeBytes w.sha) [1, 2, 3] := ⟨by decide, by show pieceCount 3 2 ≤ 2 ^ 32; decide, by show 2 * pieceCount 3 2 < 2 ^ 64; decide⟩
  have hdl : ∀ f ∈ listedFiles (threeBytes w.sha), f.path.head? ≠ some b!"downloads" := by
    intro f hf; rw [List.mem_singleton.mp hf]; show some b!"a" ≠ some b!"downloads"; decide
  obtain ⟨fs', h1, h2, h3⟩ := started w LeavesCache 1 (fs := cachedFs w.cwd (List.replicate 20 17) (threeBytes w.sha)) (by rw [hother _ (by decide)]; simp)
  have hfs : fs' (w.cwd ++ [b!"a"]) = none := by rw [h3 _ (other_name (by decide) [])]; exact hother _ (by decide)
  have hc1 := (C68_program_partial (.refl _) ht hc0 h1).1
  have hplain := (threeBytes_layout_empty w).plain _ (List.mem_singleton.mpr rfl)
  have hlay : Layout w.cwd fs' (listedFiles (threeBytes w.sha)) [1, 2, 3] 2 := small_layout w.sha 1 2 3 hplain (by show fs' (w.cwd ++ [b!"a"]) ≠ _; rw [hfs]; simp) (fun c hc => absurd (hfs.symm.trans hc) (by simp))
  obtain ⟨A1, x, g1, g2, g3, g4, -, -, -, -, -, g5, g6, -, g7, g8, g9⟩ := can_request (thread := 0) (ainv_steps h1 (ainv_init _ _))
    (holds_steps h1 (fun x hx => by cases hx)) hQ hsha (by simp) init_up (by show 0 < 1; decide) (by simp) (add1 w.build) (.inr ⟨hc1, ht⟩)
    (threeBytes_describes hsha) hfit (by decide) hlay.placeable hdl
  have hA1 := h1.trans g1.steps
  have hc2 := (C68_program_partial h1 ht hc1 g1.steps).1
  have ha : readFile A1.proc.fs (w.cwd ++ [b!"a"]) = some [1, 2, 3] := over_layout hlay g6 0 _ rfl (by show 0 < 3; decide)
  have hnode : A1.proc.fs (w.cwd ++ [b!"a"]) = some (.file [1, 2, 3]) := by
    unfold readFile at ha
    split at ha
    · rename_i c hc
      rw [hc]
      cases ha
      rfl
    · cases ha
  have hlay2 : Layout w.cwd A1.proc.fs (listedFiles (threeBytes w.sha)) [1, 2, 3] 2 := small_layout w.sha 1 2 3 hplain
    (by show A1.proc.fs (w.cwd ++ [b!"a"]) ≠ _; rw [hnode]; simp)
    (fun c hc => by
      have hc' : A1.proc.fs (w.cwd ++ [b!"a"]) = some (.file c) := hc
      rw [hnode] at hc'; cases hc'; decide)
  obtain ⟨A2, y, s, k1, -, k3, k4, k2, k5, k6, k7⟩ := C103_refuted (thread := 0) hA1 hQ hsha (by rw [g2]; simp) g9 (by rw [g7]; show 0 < 1; decide) (by rw [g8]; simp)
    (add1 w.build) hc2 ht (threeBytes_describes hsha) hfit (by decide) hlay2.placeable hdl g3 g4 g5
  exact ⟨A2, _, y, s, hA1.trans k1, k2, k3, k4, k5, k6, fun i hi => k7 i (by show i < pieceCount 3 2; exact hi), (C68_program_partial hA1 ht hc2 k1).1⟩

end RustBit
