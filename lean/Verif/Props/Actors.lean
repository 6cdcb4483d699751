/-
C39–C49: the piece pool and the torrent actor with its workers and its writer, for every interleaving.
-/
import Verif.Proofs.Actors
import Verif.Props.Transfer
import Verif.Props.Cache

namespace RustBit
open Spec

/-! ### C39 -/

/-- Performing operations on a pool: the pool afterwards and the results of the `pop`s, in order. -/
def runPool (q : PiecePool) : List QOp → PiecePool × List (Option Nat)
  | [] => (q, [])
  | .pop :: ops => match runPool q.pop.2 ops with
    | (q', outs) => (q', q.pop.1 :: outs)
  | .insert i :: ops => runPool (q.insert i) ops

theorem runPool_balance (ops : List QOp) : ∀ q : PiecePool,
    (runPool q ops).2.filterMap id ++ (runPool q ops).1 = q ++ inserted ops := by
  induction ops with
  | nil => intro q; simp [runPool, inserted]
  | cons o ops ih =>
    intro q
    cases o with
    | insert i =>
      rw [runPool, ih]
      simp [PiecePool.insert, inserted]
    | pop =>
      cases q with
      | nil =>
        have := ih []
        simp only [runPool, PiecePool.pop, List.filterMap_cons, id] at this ⊢
        rw [this]
        simp [inserted]
      | cons i q =>
        have := ih q
        simp only [runPool, PiecePool.pop, List.filterMap_cons, id] at this ⊢
        rw [List.cons_append, this]
        simp [inserted]

/-- C39: whatever was done before, the next `pop` returns the entry of the sequence `0, ..., n-1`, then the inserted ones in order,
that comes after those already popped (`None` if there is none); what was popped together with what is left is that sequence. -/
theorem C39_fifo (n : Nat) (ops : List QOp) :
    (runPool (PiecePool.new n) ops).2.filterMap id ++ (runPool (PiecePool.new n) ops).1 = List.range n ++ inserted ops ∧
    (runPool (PiecePool.new n) ops).1.pop.1 =
      (List.range n ++ inserted ops)[((runPool (PiecePool.new n) ops).2.filterMap id).length]? := by
  have h := runPool_balance ops (PiecePool.new n)
  rw [pool_new] at *
  refine ⟨h, ?_⟩
  rw [← h, List.getElem?_append_right (Nat.le_refl _), Nat.sub_self]
  cases (runPool (List.range n) ops).1 <;> rfl

example : runPool (PiecePool.new 2) [.pop, .insert 0, .pop, .pop, .pop] = ([], [some 0, some 1, some 0, none]) := rfl

/-! ### Runs used as witnesses -/

theorem Steps.single {w : World} {s t : Sys} (h : Step w s t) : Steps w s t := .tail (.refl s) h

theorem Steps.trans {w : World} {s t u : Sys} (h1 : Steps w s t) (h2 : Steps w t u) : Steps w s u := by
  induction h2 with
  | refl => exact h1
  | tail _ hs ih => exact .tail ih hs

theorem reachable_steps {w : World} {s t : Sys} (h : Reachable w s) (hs : Steps w s t) : Reachable w t := by
  obtain ⟨infoHash, fs, h⟩ := h
  exact ⟨infoHash, fs, h.trans hs⟩

/-- A disk with the metadata of one torrent in the cache. -/
def cachedFs (cwd : Loc) (infoHash : Bytes) (info : Info) : FS := fun l =>
  if l = cwd ++ [b!"downloads"] then some .dir
  else if l = cacheLoc cwd infoHash then some (.file info.json) else none

/-- The metadata of the torrent is in the cache. -/
def Cached (fs : FS) (cwd : Loc) (infoHash : Bytes) (info : Info) : Prop :=
  fs (cwd ++ [b!"downloads"]) = some .dir ∧ readFile fs (cacheLoc cwd infoHash) = some info.json

theorem cachedFs_cached (cwd : Loc) (infoHash : Bytes) (info : Info) : Cached (cachedFs cwd infoHash info) cwd infoHash info := by
  have hne : cacheLoc cwd infoHash ≠ cwd ++ [b!"downloads"] := by
    intro e
    have := congrArg List.length e
    simp [cacheLoc] at this
  exact ⟨by simp [cachedFs], by simp [readFile, cachedFs, hne]⟩

theorem collect_on {ε : Type} {m : Build} {cwd : Loc} {fs : FS} {infoHash : Bytes} {info : Info} (h : 2 < infoHash.length) (ht : Typed info)
    (hc : Cached fs cwd infoHash info) (dial : Dial) (f : Nat) (peerId : Bytes) (room : Nat) :
    (collectInfo m cwd fs dial f peerId infoHash room : Res ε (Option Info) × FS) = (.ok (some info), fs) := by
  rw [collectInfo_exists hc.1, Info.fromFile, readToString_cache h hc.1, hc.2, Option.bind_some, if_pos (Info.json_utf8 ht)]
  simp only []
  rw [Info.fromJson_json (typed_sized ht)]

theorem collect_cached {ε : Type} {m : Build} {cwd : Loc} {infoHash : Bytes} {info : Info} (h : 2 < infoHash.length) (ht : Typed info)
    (dial : Dial) (f : Nat) (peerId : Bytes) (room : Nat) :
    (collectInfo m cwd (cachedFs cwd infoHash info) dial f peerId infoHash room : Res ε (Option Info) × FS) =
      (.ok (some info), cachedFs cwd infoHash info) :=
  collect_on h ht (cachedFs_cached _ _ _) dial f peerId room

/-- A peer. -/
def peer0 : PeerEndpoint := ⟨b!"1.2.3.4", 80⟩

theorem peer0_found : peer0 ∈ PeerEndpoint.fromBytes [1, 2, 3, 4, 0, 80] := by decide +kernel

/-- A torrent with metadata after the same peer has been found `k` times. -/
def knownSys (fs : FS) (infoHash : Bytes) (info : Info) (n k : Nat) : Sys :=
  { Sys.init infoHash fs with
    torrent := ⟨some info, infoHash, List.replicate k (TPeer.new peer0.endpoint), some (PiecePool.new n), false⟩
    handled := List.replicate k (.found peer0) }

/-- The same, started. -/
def startedSys (fs : FS) (infoHash : Bytes) (info : Info) (n : Nat) : Sys :=
  { Sys.init infoHash fs with
    torrent := ⟨some info, infoHash, List.replicate 11 (TPeer.new peer0.endpoint), some ((List.range n).drop 5), true⟩
    handled := List.replicate 11 (.found peer0)
    queue := ((List.range n).take 5).map (fun i => ⟨peer0.endpoint, info, i⟩) }

theorem run_known_on {w : World} {fs : FS} {infoHash : Bytes} {info : Info} {n : Nat} (h : 2 < infoHash.length) (ht : Typed info)
    (hcached : Cached fs w.cwd infoHash info) (hn : (pieceTotal w.build info : Res Unit Nat) = .ok n) :
    ∀ k, k < 10 → Steps w (Sys.init infoHash fs) (knownSys fs infoHash info n (k + 1)) := by
  intro k
  have hc : ∀ tcp, (collectInfo w.build w.cwd fs (dialOf peer0.endpoint tcp) 0 [] infoHash 0 : Res Unit (Option Info) × FS) = (.ok (some info), fs) :=
    fun tcp => collect_on h ht hcached _ _ _ _
  induction k with
  | zero =>
    intro _
    have s1 := Step.announce (w := w) (Sys.init infoHash fs) _ peer0 peer0_found
    have s2 := Step.collect (w := w) { Sys.init infoHash fs with mail := [.found peer0] } peer0 [] rfl rfl rfl (fun _ => none) 0 [] 0 _ _ (by simp)
      (hc (fun _ => none))
    have e : ({ ({ Sys.init infoHash fs with mail := [.found peer0] } : Sys).after (.found peer0) []
        (((Sys.init infoHash fs).torrent.addPeer peer0).onCollected w.build (.ok (some info))) with fs } : Sys) = knownSys fs infoHash info n 1 := by
      simp only [Torrent.onCollected, hn]
      rfl
    rw [← e]
    exact .tail (.tail (.refl _) s1) s2
  | succ k ih =>
    intro hk
    refine (ih (by omega)).trans ?_
    have s1 := Step.announce (w := w) (knownSys fs infoHash info n (k + 1)) _ peer0 peer0_found
    have s2 := Step.found (w := w) { knownSys fs infoHash info n (k + 1) with mail := [.found peer0] } peer0 [] rfl rfl info rfl
      (List.replicate 5 ((knownSys fs infoHash info n (k + 1)).torrent.addPeer peer0).peers) (by simp)
      (by intro l hl; rw [List.eq_of_mem_replicate hl])
    have e : (({ knownSys fs infoHash info n (k + 1) with mail := [.found peer0] } : Sys).after (.found peer0) []
        (((knownSys fs infoHash info n (k + 1)).torrent.addPeer peer0).onReady info
          (List.replicate 5 ((knownSys fs infoHash info n (k + 1)).torrent.addPeer peer0).peers))) = knownSys fs infoHash info n (k + 2) := by
      rw [Torrent.onReady, if_neg]
      · simp [Sys.after, knownSys, Torrent.addPeer, Sys.init, List.replicate_succ']
      · simp [Torrent.addPeer, knownSys]
        omega
    rw [← e]
    exact .tail (.tail (.refl _) s1) s2

theorem run_known {w : World} {infoHash : Bytes} {info : Info} {n : Nat} (h : 2 < infoHash.length) (ht : Typed info)
    (hn : (pieceTotal w.build info : Res Unit Nat) = .ok n) :
    ∀ k, k < 10 → Steps w (Sys.init infoHash (cachedFs w.cwd infoHash info)) (knownSys (cachedFs w.cwd infoHash info) infoHash info n (k + 1)) :=
  run_known_on h ht (cachedFs_cached _ _ _) hn

theorem startRequests_const (info : Info) (l : List TPeer) (e : Bytes) (hl : (TPeer.findSuitablePeer l : Res Unit Bytes) = .ok e) :
    ∀ (k : Nat) (q : PiecePool), startRequests info (List.replicate k l) q = (.ok (), q.drop k, (q.take k).map (fun i => ⟨e, info, i⟩)) := by
  intro k
  induction k with
  | zero => intro q; simp [startRequests]
  | succ k ih =>
    intro q
    rw [List.replicate_succ, startRequests, hl]
    cases q with
    | nil => simp [PiecePool.pop, ih]
    | cons i q => simp [PiecePool.pop, ih]

theorem run_started_on {w : World} {fs : FS} {infoHash : Bytes} {info : Info} {n : Nat} (h : 2 < infoHash.length) (ht : Typed info)
    (hcached : Cached fs w.cwd infoHash info) (hn : (pieceTotal w.build info : Res Unit Nat) = .ok n) (hpos : 0 < n) :
    Steps w (Sys.init infoHash fs) (startedSys fs infoHash info n) := by
  refine (run_known_on h ht hcached hn 9 (by decide)).trans ?_
  have s1 := Step.announce (w := w) (knownSys fs infoHash info n 10) _ peer0 peer0_found
  have s2 := Step.found (w := w) { knownSys fs infoHash info n 10 with mail := [.found peer0] } peer0 [] rfl rfl info rfl
    (List.replicate 5 ((knownSys fs infoHash info n 10).torrent.addPeer peer0).peers) (by simp)
    (by intro l hl; rw [List.eq_of_mem_replicate hl])
  have e : (({ knownSys fs infoHash info n 10 with mail := [.found peer0] } : Sys).after (.found peer0) []
      (((knownSys fs infoHash info n 10).torrent.addPeer peer0).onReady info
        (List.replicate 5 ((knownSys fs infoHash info n 10).torrent.addPeer peer0).peers))) = startedSys fs infoHash info n := by
    have hq : (((List.range n).take 5).map (fun i => (⟨peer0.endpoint, info, i⟩ : Request))).isEmpty = false := by
      cases n with
      | zero => omega
      | succ n => simp [List.range_succ_eq_map]
    rw [Torrent.onReady, if_pos (by simp [Torrent.addPeer, knownSys])]
    simp only [Torrent.addPeer, knownSys, pool_new]
    rw [startRequests_const info _ peer0.endpoint rfl]
    simp only [hq]
    rfl
  rw [← e]
  exact .tail (.tail (.refl _) s1) s2

theorem run_started {w : World} {infoHash : Bytes} {info : Info} {n : Nat} (h : 2 < infoHash.length) (ht : Typed info)
    (hn : (pieceTotal w.build info : Res Unit Nat) = .ok n) (hpos : 0 < n) :
    Steps w (Sys.init infoHash (cachedFs w.cwd infoHash info)) (startedSys (cachedFs w.cwd infoHash info) infoHash info n) :=
  run_started_on h ht (cachedFs_cached _ _ _) hn hpos

/-- A peer whose first message is a block message without a body. -/
def crashingPeer : Net := script [[0, 0, 0, 1, 7]]

theorem download_crashes (sha : Bytes → Bytes) (m : Build) (f : Nat) (peerId : Bytes) (info : Info) (idx : Nat) :
    downloadPiece sha m (.connected crashingPeer) f peerId info idx = .panic := rfl

/-- After the first worker died. -/
def crashedSys (fs : FS) (infoHash : Bytes) (info : Info) (n : Nat) : Sys :=
  { startedSys fs infoHash info n with
    queue := (((List.range n).take 5).drop 1).map (fun i => ⟨peer0.endpoint, info, i⟩)
    workers := 4
    lost := [0] }

/-- In every world and for every metadata with at least one piece there is a run in which the worker downloading piece 0 dies. -/
theorem run_crashed {w : World} {infoHash : Bytes} {info : Info} {n : Nat} (h : 2 < infoHash.length) (ht : Typed info)
    (hn : (pieceTotal w.build info : Res Unit Nat) = .ok n) (hpos : 0 < n) :
    Reachable w (crashedSys (cachedFs w.cwd infoHash info) infoHash info n) := by
  refine ⟨infoHash, cachedFs w.cwd infoHash info, (run_started h ht hn hpos).trans ?_⟩
  generalize cachedFs w.cwd infoHash info = fs
  have hq : (startedSys fs infoHash info n).queue = ⟨peer0.endpoint, info, 0⟩ ::
      (((List.range n).take 5).drop 1).map (fun i => ⟨peer0.endpoint, info, i⟩) := by
    cases n with
    | zero => omega
    | succ n => simp [startedSys, List.range_succ_eq_map]
  have s1 := Step.take (w := w) (startedSys fs infoHash info n) _ _ hq (show 0 < 5 by decide)
  have s2 := Step.finishPanic (w := w) { startedSys fs infoHash info n with
      queue := (((List.range n).take 5).drop 1).map (fun i => ⟨peer0.endpoint, info, i⟩), busy := [⟨peer0.endpoint, info, 0⟩] }
    [] [] ⟨peer0.endpoint, info, 0⟩ rfl (fun _ => some crashingPeer) 0 [] (by
      have : dialOf peer0.endpoint (fun _ => some crashingPeer) = .connected crashingPeer := by
        have : parseSocketV4 peer0.endpoint = some ([1, 2, 3, 4], 80) := by decide +kernel
        rw [dialOf, this]
      rw [this]
      exact download_crashes _ _ _ _ _ _)
  exact .tail (.tail (.refl _) s1) s2

/-- Metadata of a torrent of one byte. -/
def oneInfo : Info := ⟨none, some 1, b!"a", 1, List.replicate 20 0⟩

theorem oneInfo_typed : Typed oneInfo := by
  refine ⟨by decide +kernel, by decide, ?_, ?_⟩
  · intro n h; cases h; decide
  · intro fs h; cases h

theorem oneInfo_total (m : Build) : (pieceTotal m oneInfo : Res Unit Nat) = .ok 1 := rfl

/-! ### C40 – C43 -/

/-- The sum of the lengths is computed without wrapping around. -/
def NoWrap (w : World) (info : Info) : Prop := w.build = .debug ∨ contentLength info < 2 ^ 64

/-- The number of pieces the program reckons with. -/
theorem pieceTotal_wrapped {ε : Type} {m : Build} {info : Info} {n : Nat} (h : (pieceTotal m info : Res ε Nat) = .ok n) :
    n = wrappedCount info := by
  have step : ∀ t : Nat, (stepByLen t info.pieceLength : Res ε Nat) = .ok n → n = (t + info.pieceLength - 1) / info.pieceLength := by
    intro t ht
    unfold stepByLen at ht
    split at ht
    · cases ht
    · simp only [Res.ok.injEq] at ht
      rw [← ht]
      congr 1
      omega
  unfold pieceTotal Info.getTotalLength at h
  unfold wrappedCount
  cases hf : info.files with
  | none =>
    cases hl : info.length with
    | none => rw [hf, hl] at h; cases h
    | some t =>
      rw [hf, hl] at h
      exact step t h
  | some fs =>
    rw [hf] at h
    simp only [] at h ⊢
    by_cases hs : (fs.map File.length).sum < 2 ^ 64
    · rw [usum_of_lt _ _ hs] at h
      rw [Nat.mod_eq_of_lt hs]
      exact step _ h
    · cases m with
      | debug => rw [usum_debug _ (by omega)] at h; cases h
      | release => rw [usum_release] at h; exact step _ h

theorem wrappedCount_eq {info : Info} (h : contentLength info < 2 ^ 64) : wrappedCount info = count info := by
  unfold contentLength at h
  unfold wrappedCount count contentLength
  cases hf : info.files with
  | none => rfl
  | some fs =>
    rw [hf] at h
    have h : (fs.map File.length).sum < 2 ^ 64 := h
    simp only [contentLength.total', Nat.mod_eq_of_lt h]

theorem pieceTotal_count {ε : Type} {w : World} {info : Info} {n : Nat} (hw : NoWrap w info)
    (h : (pieceTotal w.build info : Res ε Nat) = .ok n) : n = count info := by
  by_cases hs : contentLength info < 2 ^ 64
  · rw [pieceTotal_wrapped h, wrappedCount_eq hs]
  · rcases hw with hw | hw
    · unfold pieceTotal Info.getTotalLength at h
      unfold contentLength at hs
      unfold count contentLength
      cases hf : info.files with
      | none =>
        cases hl : info.length with
        | none => rw [hf, hl] at h; cases h
        | some t =>
          rw [pieceTotal_wrapped (m := w.build) (ε := ε) (info := info) (n := n) (by unfold pieceTotal Info.getTotalLength; exact h)]
          unfold wrappedCount
          rw [hf, hl]
      | some fs =>
        rw [hf] at h hs
        simp only [] at h
        rw [hw, usum_debug _ (by simpa [contentLength.total'] using hs)] at h
        cases h
    · exact absurd hw hs

/-- C40, including losses and totals that do not fit in 64 bits: at every moment each of the pieces the program reckons with is in exactly one
place. -/
theorem C40_exact {w : World} {s : Sys} {info : Info} (hr : Among w s) (hi : s.torrent.info = some info) :
    (waiting s ++ flight s ++ handed s ++ s.lost).Perm (List.range (wrappedCount info)) ∧
    ((waiting s ++ flight s ++ handed s ++ s.lost).Perm (List.range (count info)) ↔ wrappedCount info = count info) := by
  obtain ⟨n, h⟩ := among_known hr hi
  have hp := h.perm
  rw [pieceTotal_wrapped h.total] at hp
  refine ⟨hp, fun hc => ?_, fun e => by rw [← e]; exact hp⟩
  have := (hp.symm.trans hc).length_eq
  simpa using this

/-- C40, including losses: at every moment each piece is in exactly one place: in the pool, in flight, handed to the writer, or lost with the
worker that was downloading it. Missing: pieces do get lost (refuted below); totals that wrap around. -/
theorem C40_one_place_partial {w : World} {s : Sys} {info : Info} (hr : Among w s) (hi : s.torrent.info = some info) (hw : NoWrap w info) :
    (waiting s ++ flight s ++ handed s ++ s.lost).Perm (List.range (count info)) := by
  obtain ⟨n, h⟩ := among_known hr hi
  rw [← pieceTotal_count hw h.total]
  exact h.perm

/-- C40: without metadata there are no pieces anywhere. -/
theorem C40_before {w : World} {s : Sys} (hr : Among w s) (hi : s.torrent.info = none) :
    waiting s = [] ∧ flight s = [] ∧ handed s = [] ∧ s.lost = [] := by
  rcases among_inv hr with h | ⟨info, n, h⟩
  · refine ⟨by simp [waiting, h.pool], ?_, by simp [handed, h.ready, h.written], h.lost⟩
    simp only [flight, h.queue, h.busy, List.map_nil, List.nil_append]
    rw [reports, List.filterMap_eq_nil_iff]
    intro m hm
    obtain ⟨p, rfl, -⟩ := h.mail m hm
    rfl
  · rw [h.hasInfo] at hi; cases hi

/-- C40 refuted, in every world and for all metadata with a piece: piece 0 is nowhere after a peer made the worker panic. -/
theorem C40_refuted {w : World} {infoHash : Bytes} {info : Info} (h : 2 < infoHash.length) (ht : Typed info) (hw : NoWrap w info)
    {n : Nat} (hn : (pieceTotal w.build info : Res Unit Nat) = .ok n) (hpos : 0 < n) :
    ∃ s, Reachable w s ∧ s.torrent.info = some info ∧ 0 < count info ∧ 0 ∉ waiting s ++ flight s ++ handed s := by
  have hr := run_crashed h ht hn hpos
  refine ⟨_, hr, rfl, by rw [← pieceTotal_count hw hn]; exact hpos, ?_⟩
  have hp := (C40_one_place_partial hr.among rfl hw).nodup_iff.mpr List.nodup_range
  intro hm
  exact (List.nodup_append.mp hp).2.2 0 hm 0 (by simp [crashedSys]) rfl

example (w : World) : ∃ s, Reachable w s ∧ s.torrent.info = some oneInfo ∧ 0 < count oneInfo ∧ 0 ∉ waiting s ++ flight s ++ handed s :=
  C40_refuted (infoHash := List.replicate 20 7) (by decide) oneInfo_typed (.inr (by decide)) (oneInfo_total _) (by decide)

/-- C41: at most five pieces are in flight. -/
theorem C41_at_most_five {w : World} {s : Sys} (hr : Among w s) : (flight s).length ≤ 5 ∧ (s.queue ++ s.busy).length ≤ 5 := by
  have h5 : (flight s).length ≤ 5 := by
    rcases among_inv hr with h | ⟨info, n, h⟩
    · rw [(C40_before hr h.info).2.1]; simp
    · have := h.five; omega
  refine ⟨h5, ?_⟩
  simp only [flight, List.length_append, List.length_map] at h5 ⊢
  omega

/-- Five pieces do get in flight. -/
example (w : World) : ∃ s, Reachable w s ∧ (flight s).length = 5 :=
  ⟨_, ⟨_, _, run_started (info := ⟨none, some 9, b!"a", 1, []⟩) (infoHash := List.replicate 20 7) (n := 9) (by decide)
    ⟨by decide +kernel, by decide, by intro n h; cases h; decide, by intro fs h; cases h⟩ rfl (by decide)⟩, rfl⟩

/-- C42: once started, as long as a piece is neither handed to the writer nor lost, some piece is in flight, unless all five
workers have died. Missing: lost pieces are not retried, and five dead workers stop everything (refuted below). -/
theorem C42_in_flight_partial {w : World} {s : Sys} {info : Info} (hr : Among w s) (hi : s.torrent.info = some info) (hw : NoWrap w info)
    (hs : s.torrent.initiated = true) (hl : s.lost.length < 5) {i : Nat} (hic : i < count info) (hih : i ∉ handed s) (hil : i ∉ s.lost) :
    flight s ≠ [] := by
  obtain ⟨n, h⟩ := among_known hr hi
  rw [← pieceTotal_count hw h.total] at hic
  intro hf
  have hwait : waiting s = [] := by
    by_cases hwt : waiting s = []
    · exact hwt
    · have := h.full hs hwt
      rw [hf] at this
      simp at this
      omega
  have hm : i ∈ waiting s ++ flight s ++ handed s ++ s.lost := h.perm.mem_iff.mpr (List.mem_range.mpr hic)
  rw [hwait, hf] at hm
  simp only [List.nil_append, List.mem_append] at hm
  rcases hm with hm | hm
  · exact hih hm
  · exact hil hm

/-- C42: there is always an event that makes progress. If a piece is in flight then the torrent actor can handle a message, or an idle worker can
take a request, or a worker is busy; in the last case the download can end without the worker dying (for example with an error). Missing: five
dead workers. -/
theorem C42_progress_partial {w : World} {s : Sys} (hr : Among w s) (hl : s.lost.length < 5) (hf : flight s ≠ []) :
    (∃ t msg, Step w s t ∧ t.handled = s.handled ++ [msg]) ∨ (∃ t, Step w s t ∧ t.busy.length = s.busy.length + 1) ∨
    (s.busy ≠ [] ∧ ∃ t, Step w s t ∧ t.busy.length + 1 = s.busy.length ∧ t.lost = s.lost) := by
  rcases among_inv hr with h | ⟨info, n, h⟩
  · exact absurd (C40_before hr h.info).2.1 hf
  · cases hm : s.mail with
    | cons m rest =>
      left
      cases m with
      | found p =>
        refine ⟨_, _, .found s p rest h.up hm info h.hasInfo (List.replicate 5 (s.torrent.addPeer p).peers) (by simp) ?_, rfl⟩
        intro l hl
        rw [List.eq_of_mem_replicate hl]
      | success e piece i => exact ⟨_, _, .success s e piece i rest h.up hm, rfl⟩
      | failed e i => exact ⟨_, _, .failed s e i rest h.up hm _ (.refl _), rfl⟩
    | nil =>
      cases hb : s.busy with
      | cons r post =>
        right; right
        obtain ⟨a, ha⟩ := (h.requests r (by rw [hb]; simp)).2
        refine ⟨by simp, _, .finishErr s [] post r hb (fun _ => none) 0 [] .stream ?_, ?_, rfl⟩
        · rw [dialOf, ha]; rfl
        · simp
      | nil =>
        cases hq : s.queue with
        | nil => simp [flight, hm, hb, hq] at hf
        | cons r q =>
          right; left
          refine ⟨_, .take s r q hq ?_, by simp [hb]⟩
          have := h.workers
          rw [hb]
          simp
          omega

/-- C42 refuted: in every world there is a run after which nothing is in flight although the only piece has not been handed over. -/
theorem C42_refuted (w : World) : ∃ s, Reachable w s ∧ s.torrent.info = some oneInfo ∧ s.torrent.initiated = true ∧ 0 < count oneInfo ∧
    handed s = [] ∧ waiting s = [] ∧ flight s = [] :=
  ⟨_, run_crashed (infoHash := List.replicate 20 7) (info := oneInfo) (by decide) oneInfo_typed (oneInfo_total _) (by decide), rfl, rfl, by decide,
    rfl, rfl, rfl⟩

/-- Non-vacuity of `C42_in_flight_partial`: a started torrent. -/
example (w : World) : ∃ s, Reachable w s ∧ s.torrent.info = some oneInfo ∧ s.torrent.initiated = true ∧ s.lost.length < 5 ∧ 0 < count oneInfo ∧
    0 ∉ handed s ∧ 0 ∉ s.lost :=
  ⟨_, ⟨_, _, run_started (infoHash := List.replicate 20 7) (info := oneInfo) (by decide) oneInfo_typed (oneInfo_total _) (by decide)⟩, rfl, rfl,
    show 0 < 5 by decide, by decide, List.not_mem_nil, List.not_mem_nil⟩

/-- C43: if a started torrent has nothing in flight and no worker died, the pieces handed to the writer are exactly `0, ..., count - 1`, each
once. Missing: dead workers (refuted below). -/
theorem C43_all_handed_partial {w : World} {s : Sys} {info : Info} (hr : Among w s) (hi : s.torrent.info = some info) (hw : NoWrap w info)
    (hs : s.torrent.initiated = true) (hl : s.lost = []) (hf : flight s = []) : (handed s).Perm (List.range (count info)) := by
  obtain ⟨n, h⟩ := among_known hr hi
  rw [← pieceTotal_count hw h.total]
  have hwait : waiting s = [] := by
    by_cases hwt : waiting s = []
    · exact hwt
    · have := h.full hs hwt
      rw [hf, hl] at this
      simp at this
  have := h.perm
  rw [hwait, hf, hl] at this
  simpa using this

/-- C43 refuted: in every world there is a run after which a started torrent has no outstanding work and has handed nothing over. -/
theorem C43_refuted (w : World) : ∃ s, Reachable w s ∧ s.torrent.info = some oneInfo ∧ s.torrent.initiated = true ∧ flight s = [] ∧
    ¬ (handed s).Perm (List.range (count oneInfo)) :=
  ⟨_, run_crashed (infoHash := List.replicate 20 7) (info := oneInfo) (by decide) oneInfo_typed (oneInfo_total _) (by decide), rfl, rfl, rfl, by
    intro h
    have : 0 = (List.range (count oneInfo)).length := h.length_eq
    revert this
    decide⟩

/-! ### C44 -/

theorem peers_length {l : List TPeer} {e : Bytes} : (TPeer.updateFailed l e).length = l.length ∧ (TPeer.updateSuccess l e).length = l.length := by
  simp [TPeer.updateFailed, TPeer.updateSuccess]

theorem onSuccess_known {w : World} {info : Info} {n : Nat} {s : Sys} (h : Known w info n s) (endpoint piece : Bytes) (idx : Nat) :
    (s.torrent.onSuccess endpoint piece idx).torrent.peers = TPeer.updateSuccess s.torrent.peers endpoint ∧
    (s.torrent.onSuccess endpoint piece idx).torrent.initiated = s.torrent.initiated := by
  obtain ⟨files, hf⟩ := getFiles_of_total h.total
  rw [Torrent.onSuccess, h.hasInfo]
  simp only [hf, h.pool]
  cases waiting s <;> exact ⟨rfl, rfl⟩

theorem onFailed_known {w : World} {info : Info} {n : Nat} {s : Sys} (h : Known w info n s) (shuffled : List TPeer) (endpoint : Bytes) (idx : Nat) :
    (s.torrent.onFailed shuffled endpoint idx).torrent.peers = TPeer.updateFailed s.torrent.peers endpoint ∧
    (s.torrent.onFailed shuffled endpoint idx).torrent.initiated = s.torrent.initiated := by
  rw [Torrent.onFailed, h.pool]
  simp only [h.hasInfo]
  cases (TPeer.findSuitablePeer shuffled : Res Unit Bytes) with
  | ok e =>
    simp only [Torrent.requestNext]
    cases hq : (PiecePool.insert (waiting s) idx).pop with
    | mk o q => cases o <;> exact ⟨rfl, rfl⟩
  | err _ => exact ⟨rfl, rfl⟩
  | panic => exact ⟨rfl, rfl⟩
  | hang => exact ⟨rfl, rfl⟩

theorem onReady_peers (t : Torrent) (info : Info) (shuffles : List (List TPeer)) :
    (t.onReady info shuffles).torrent.peers = t.peers := by
  rw [Torrent.onReady]
  split
  · cases t.pool <;> rfl
  · rfl

theorem onCollected_peers (m : Build) (t : Torrent) (c : Res Unit (Option Info)) :
    (t.onCollected m c).torrent.peers = t.peers ∧ (t.onCollected m c).torrent.initiated = t.initiated := by
  rw [Torrent.onCollected.eq_def]
  cases c with
  | ok o =>
    cases o with
    | none => exact ⟨rfl, rfl⟩
    | some info =>
      simp only []
      cases (pieceTotal m info : Res Unit Nat) <;> exact ⟨rfl, rfl⟩
  | err _ => exact ⟨rfl, rfl⟩
  | panic => exact ⟨rfl, rfl⟩
  | hang => exact ⟨rfl, rfl⟩

/-- Nothing starts before eleven peers are known. -/
theorem eleven_peers {w : World} {s : Sys} (hr : Among w s) : s.torrent.initiated = true → 10 < s.torrent.peers.length := by
  induction hr with
  | disk _ _ ih => exact ih
  | wrote _ _ _ _ _ _ _ ih => exact ih
  | init => intro h; simp [Sys.init, Torrent.new] at h
  | @step s t hs hst ih =>
    have hinv := among_inv hs
    cases hst with
    | announce => exact ih
    | take => exact ih
    | finishOk => exact ih
    | finishErr => exact ih
    | finishPanic => exact ih
    | write => exact ih
    | success endpoint piece idx rest hd hm =>
      rcases hinv with h | ⟨info, n, h⟩
      · obtain ⟨p, e, -⟩ := h.mail _ (by rw [hm]; exact List.mem_cons_self ..)
        cases e
      · intro hi
        simp only [Sys.after] at hi ⊢
        rw [(onSuccess_known h endpoint piece idx).2] at hi
        rw [(onSuccess_known h endpoint piece idx).1, peers_length.2]
        exact ih hi
    | failed endpoint idx rest hd hm shuffled hsh =>
      rcases hinv with h | ⟨info, n, h⟩
      · obtain ⟨p, e, -⟩ := h.mail _ (by rw [hm]; exact List.mem_cons_self ..)
        cases e
      · intro hi
        simp only [Sys.after] at hi ⊢
        rw [(onFailed_known h shuffled endpoint idx).2] at hi
        rw [(onFailed_known h shuffled endpoint idx).1, peers_length.1]
        exact ih hi
    | collect p rest hd hm hi tcp f peerId room collected fs' hh hc =>
      intro hi'
      simp only [Sys.after] at hi' ⊢
      rw [(onCollected_peers _ _ _).2] at hi'
      rw [(onCollected_peers _ _ _).1]
      have := ih hi'
      simp only [Torrent.addPeer, List.length_append]
      omega
    | found p rest hd hm info hi shuffles hn hsh =>
      intro hi'
      simp only [Sys.after] at hi' ⊢
      rw [onReady_peers]
      rw [Torrent.onReady] at hi'
      split at hi'
      · rename_i hc
        simp only [Bool.and_eq_true, decide_eq_true_eq] at hc
        exact hc.1
      · have := ih hi'
        simp only [Torrent.addPeer, List.length_append]
        omega

/-- C44 refuted, for all runs: with at most ten peers no piece has ever been requested. -/
theorem C44_refuted {w : World} {s : Sys} (hr : Among w s) (hp : s.torrent.peers.length ≤ 10) :
    flight s = [] ∧ handed s = [] ∧ s.lost = [] := by
  rcases among_inv hr with h | ⟨info, n, h⟩
  · exact (C40_before hr h.info).2
  · have hi : s.torrent.initiated = false := by
      cases hi : s.torrent.initiated with
      | false => rfl
      | true => have := eleven_peers hr hi; omega
    have := h.idle hi
    exact ⟨this.1, this.2.1, this.2.2.1⟩

/-- Non-vacuity: ten peers and metadata with a piece. -/
example (w : World) : ∃ s, Reachable w s ∧ s.torrent.info = some oneInfo ∧ s.torrent.peers.length = 10 ∧ s.mail = [] :=
  ⟨_, ⟨_, _, run_known (infoHash := List.replicate 20 7) (info := oneInfo) (by decide) oneInfo_typed (oneInfo_total _) 9 (by decide)⟩, rfl, rfl, rfl⟩

/-- C44 refuted also beyond ten peers, for all runs: the peer from which the metadata is obtained never triggers a request, however many peers
are known; the next peer found does. -/
theorem C44_refuted_last_peer {w : World} {s t : Sys} {info : Info} (hr : Among w s) (hn : s.torrent.info = none) (hst : Step w s t)
    (hi : t.torrent.info = some info) : flight t = [] ∧ handed t = [] := by
  rcases among_inv hr with h | ⟨_, _, h⟩
  · have ht := among_steps hr (.single hst)
    obtain ⟨n, hk⟩ := among_known ht hi
    have : t.torrent.initiated = false := by
      cases hst with
      | announce => exact h.initiated
      | take => exact h.initiated
      | finishOk => exact h.initiated
      | finishErr => exact h.initiated
      | finishPanic => exact h.initiated
      | write => exact h.initiated
      | success endpoint piece idx rest hd hm =>
        obtain ⟨p, e, -⟩ := h.mail _ (by rw [hm]; exact List.mem_cons_self ..)
        cases e
      | failed endpoint idx rest hd hm =>
        obtain ⟨p, e, -⟩ := h.mail _ (by rw [hm]; exact List.mem_cons_self ..)
        cases e
      | found p rest hd hm info' hi' => rw [hn] at hi'; cases hi'
      | collect p rest hd hm hi' tcp f peerId room collected fs' hh hc =>
        simp only [Sys.after]
        rw [(onCollected_peers _ _ _).2]
        exact h.initiated
    have := hk.idle this
    exact ⟨this.1, this.2.1⟩
  · rw [h.hasInfo] at hn; cases hn

/-- C44: when a peer is found, the metadata being known and ten peers known before, the first five pieces (all, if there are fewer) are requested.
Missing: fewer peers, and metadata obtained from the last peer found (refuted above). -/
theorem C44_starts_partial {w : World} {s t : Sys} {info : Info} {p : PeerEndpoint} {rest : List Mail} (hr : Among w s)
    (hi : s.torrent.info = some info) (hw : NoWrap w info) (hm : s.mail = .found p :: rest) (hp : 10 ≤ s.torrent.peers.length)
    (hs : s.torrent.initiated = false) (hst : Step w s t) (hh : t.handled = s.handled ++ [.found p]) :
    flight t = List.range (min 5 (count info)) ∧ (0 < count info → t.torrent.initiated = true) := by
  obtain ⟨n, h⟩ := among_known hr hi
  rw [← pieceTotal_count hw h.total]
  obtain ⟨hf, -, hlost, hwait⟩ := h.idle hs
  have hne : ∀ {m : Mail}, s.handled ≠ s.handled ++ [m] := by
    intro m e
    have := congrArg List.length e
    simp at this
  cases hst with
  | announce => exact absurd hh hne
  | take => exact absurd hh hne
  | finishOk => exact absurd hh hne
  | finishErr => exact absurd hh hne
  | finishPanic => exact absurd hh hne
  | write => exact absurd hh hne
  | success _ _ _ _ _ hm' => rw [hm] at hm'; cases hm'
  | failed _ _ _ _ hm' => rw [hm] at hm'; cases hm'
  | collect _ _ _ _ hi' => rw [hi] at hi'; cases hi'
  | found p' rest' hd hm' info' hi' shuffles hn hsh =>
    rw [hm] at hm'
    cases hm'
    rw [hi] at hi'
    cases hi'
    have hq : s.queue = [] ∧ s.busy = [] ∧ reports s.mail = [] := by
      simp only [flight, List.append_eq_nil_iff, List.map_eq_nil_iff] at hf
      exact ⟨hf.1.1, hf.1.2, hf.2⟩
    have hrest : reports rest = [] := by rw [← hq.2.2, hm]; rfl
    have hpool : (s.torrent.addPeer p).pool = some (List.range n) := by rw [← hwait]; exact h.pool
    have hpeers : ∀ q ∈ (s.torrent.addPeer p).peers, Parses q.endpoint := by
      intro q hq
      rcases List.mem_append.mp hq with hq | hq
      · exact h.peers q hq
      · rw [List.mem_singleton.mp hq]
        have := h.mail _ (by rw [hm]; exact List.mem_cons_self ..)
        exact this
    obtain ⟨reqs, e1, e2, e3⟩ := startRequests_spec info (s.torrent.addPeer p).peers (by simp [Torrent.addPeer]) hpeers shuffles (List.range n) hsh
    rw [Torrent.onReady, if_pos, hpool]
    · simp only [e1]
      rw [hn, List.take_range] at e2
      refine ⟨?_, ?_⟩
      · simp only [Sys.after, flight, hq.1, hq.2.1, hrest, List.nil_append, e2, List.map_nil, List.append_nil]
      · intro hpos
        simp only [Sys.after, Bool.not_eq_true', List.isEmpty_eq_false_iff]
        intro e
        rw [e] at e2
        have := congrArg List.length e2
        simp at this
        omega
    · simp only [Torrent.addPeer, List.length_append, List.length_singleton, hs, Bool.and_eq_true, decide_eq_true_eq]
      exact ⟨by omega, rfl⟩

/-- Non-vacuity: the eleventh peer. -/
example (w : World) : ∃ s t, Reachable w s ∧ s.torrent.info = some oneInfo ∧ s.mail = [.found peer0] ∧ 10 ≤ s.torrent.peers.length ∧
    s.torrent.initiated = false ∧ Step w s t ∧ t.handled = s.handled ++ [.found peer0] :=
  ⟨_, _, reachable_steps ⟨_, _, run_known (infoHash := List.replicate 20 7) (info := oneInfo) (by decide) oneInfo_typed (oneInfo_total _) 9 (by decide)⟩
    (.single (.announce _ _ peer0 peer0_found)), rfl, rfl, show 10 ≤ 10 by decide, rfl,
    .found _ peer0 [] rfl rfl oneInfo rfl (List.replicate 5 (List.replicate 11 (TPeer.new peer0.endpoint))) (by simp)
      (by intro l hl; rw [List.eq_of_mem_replicate hl]; exact .refl _), rfl⟩

/-! ### C45 -/

/-- C45: metadata that has been accepted never changes, and the pool stays the one created with it. -/
theorem C45_fixed {w : World} {s t : Sys} {info : Info} (hr : Among w s) (hi : s.torrent.info = some info) (hst : Steps w s t) :
    t.torrent.info = some info ∧ (waiting t ++ flight t ++ handed t ++ t.lost).Perm (waiting s ++ flight s ++ handed s ++ s.lost) := by
  obtain ⟨n, h⟩ := among_known hr hi
  have ht := known_steps h hst
  exact ⟨ht.hasInfo, ht.perm.trans h.perm.symm⟩

/-- C45, with totals that do not fit in 64 bits: when metadata is accepted the pool is created with the pieces the program reckons with. -/
theorem C45_exact {w : World} {s t : Sys} {info : Info} (hr : Among w s) (hn : s.torrent.info = none) (hst : Step w s t)
    (hi : t.torrent.info = some info) : t.torrent.pool = some (List.range (wrappedCount info)) := by
  have h1 := C44_refuted_last_peer hr hn hst hi
  have ht := among_steps hr (.single hst)
  obtain ⟨n, hk⟩ := among_known ht hi
  have hinit : t.torrent.initiated = false := by
    cases hi' : t.torrent.initiated with
    | false => rfl
    | true =>
      rcases among_inv hr with h | ⟨_, _, h⟩
      · exfalso
        cases hst with
        | announce => rw [hn] at hi; cases hi
        | take => rw [hn] at hi; cases hi
        | finishOk => rw [hn] at hi; cases hi
        | finishErr => rw [hn] at hi; cases hi
        | finishPanic => rw [hn] at hi; cases hi
        | write => rw [hn] at hi; cases hi
        | success endpoint piece idx rest hd hm =>
          obtain ⟨p, e, -⟩ := h.mail _ (by rw [hm]; exact List.mem_cons_self ..)
          cases e
        | failed endpoint idx rest hd hm =>
          obtain ⟨p, e, -⟩ := h.mail _ (by rw [hm]; exact List.mem_cons_self ..)
          cases e
        | found p rest hd hm info' hi'' => rw [hn] at hi''; cases hi''
        | collect p rest hd hm hi'' tcp f peerId room collected fs' hh hc =>
          simp only [Sys.after] at hi'
          rw [(onCollected_peers _ _ _).2] at hi'
          simp only [Torrent.addPeer, h.initiated] at hi'
          cases hi'
      · rw [h.hasInfo] at hn; cases hn
  rw [← pieceTotal_wrapped hk.total, ← (hk.idle hinit).2.2.2]
  exact hk.pool

/-- C45: when metadata is accepted the pool is created with the pieces `0, ..., count - 1`. Missing: totals that wrap around in a release build
(refuted below). -/
theorem C45_created_partial {w : World} {s t : Sys} {info : Info} (hr : Among w s) (hn : s.torrent.info = none) (hst : Step w s t)
    (hi : t.torrent.info = some info) (hw : NoWrap w info) : t.torrent.pool = some (List.range (count info)) := by
  obtain ⟨n, hk⟩ := among_known (among_steps hr (.single hst)) hi
  rw [C45_exact hr hn hst hi, ← pieceTotal_wrapped hk.total, ← pieceTotal_count hw hk.total]

/-- Metadata whose total length does not fit in 64 bits. -/
def hugeInfo : Info := ⟨some [⟨[b!"a"], 2 ^ 63⟩, ⟨[b!"b"], 2 ^ 63⟩], none, b!"n", 1, []⟩

theorem hugeInfo_typed : Typed hugeInfo := by
  refine ⟨by decide +kernel, by decide, (fun n h => by cases h), ?_⟩
  intro fs h
  cases h
  intro f hf
  simp only [List.mem_cons, List.not_mem_nil, or_false] at hf
  rcases hf with rfl | rfl
  · exact ⟨by decide, by intro p hp; simp only [List.mem_singleton] at hp; subst hp; decide +kernel⟩
  · exact ⟨by decide, by intro p hp; simp only [List.mem_singleton] at hp; subst hp; decide +kernel⟩

/-- C45 refuted: a release build makes an empty pool for a torrent of 2^64 pieces. -/
theorem C45_refuted_wrap (sha : Bytes → Bytes) (cwd : Loc) : ∃ s, Reachable ⟨.release, sha, cwd⟩ s ∧ s.torrent.info = some hugeInfo ∧
    s.torrent.pool = some [] ∧ count hugeInfo = 2 ^ 64 := by
  refine ⟨_, ⟨_, _, run_known (w := ⟨.release, sha, cwd⟩) (infoHash := List.replicate 20 7) (info := hugeInfo) (n := 0) (by decide) hugeInfo_typed
    (show (pieceTotal .release hugeInfo : Res Unit Nat) = .ok 0 by decide +kernel) 0 (by decide)⟩, rfl, rfl, by decide +kernel⟩

/-- The two numbers of pieces differ for these metadata, and agree for ordinary ones. -/
example : wrappedCount hugeInfo = 0 ∧ count hugeInfo = 2 ^ 64 ∧ wrappedCount ⟨none, some 100, b!"n", 16, []⟩ = 7 ∧
    count ⟨none, some 100, b!"n", 16, []⟩ = 7 := by decide +kernel

/-! ### C46 -/

/-- C46: whatever the shuffle, the peer chosen is a known one; it has fewer than two failures if there is such a peer, fewer than four if there is
such a peer; and one is found if there are any. -/
theorem C46_choice {ε : Type} (peers shuffled : List TPeer) (h : shuffled.Perm peers) :
    (∀ e, (TPeer.findSuitablePeer shuffled : Res ε Bytes) = .ok e → ∃ p ∈ peers, p.endpoint = e ∧ ((∃ q ∈ peers, q.failed < 2) → p.failed < 2) ∧
      ((∃ q ∈ peers, q.failed < 4) → p.failed < 4)) ∧
    (peers ≠ [] → ∃ e, (TPeer.findSuitablePeer shuffled : Res ε Bytes) = .ok e) ∧
    (peers = [] → (TPeer.findSuitablePeer shuffled : Res ε Bytes) = .panic) := by
  by_cases hne : peers = []
  · subst hne
    have : shuffled = [] := List.perm_nil.mp h
    subst this
    exact ⟨(fun e he => by cases he), fun h => absurd rfl h, fun _ => rfl⟩
  · have hs : shuffled ≠ [] := fun e => hne (by rw [e] at h; exact List.nil_perm.mp h)
    obtain ⟨p, hp, e, h2, h4⟩ := findSuitablePeer_ok (ε := ε) hs
    refine ⟨?_, fun _ => ⟨_, e⟩, fun h => absurd h hne⟩
    intro e' he
    rw [e] at he
    cases he
    refine ⟨p, h.mem_iff.mp hp, rfl, ?_, ?_⟩
    · rintro ⟨q, hq, hf⟩; exact h2 ⟨q, h.mem_iff.mpr hq, hf⟩
    · rintro ⟨q, hq, hf⟩; exact h4 ⟨q, h.mem_iff.mpr hq, hf⟩

example : (TPeer.findSuitablePeer [⟨b!"a", 0, 5⟩, ⟨b!"b", 9, 3⟩] : Res Unit Bytes) = .ok b!"b" ∧
    (TPeer.findSuitablePeer [⟨b!"a", 0, 5⟩, ⟨b!"b", 9, 3⟩, ⟨b!"c", 0, 1⟩] : Res Unit Bytes) = .ok b!"c" ∧
    (TPeer.findSuitablePeer [⟨b!"a", 0, 5⟩, ⟨b!"b", 9, 4⟩] : Res Unit Bytes) = .ok b!"a" := ⟨rfl, rfl, rfl⟩

/-! ### C47 -/

theorem peersAfter_found (log : List Mail) (p : PeerEndpoint) : peersAfter (log ++ [.found p]) = peersAfter log ++ [TPeer.new p.endpoint] := by
  induction log with
  | nil => rfl
  | cons m log ih =>
    cases m with
    | found q => simp [peersAfter, ih, successes, failures, List.countP_append]
    | success e pc i => simpa [peersAfter] using ih
    | failed e i => simpa [peersAfter] using ih

theorem peersAfter_success (log : List Mail) (e pc : Bytes) (i : Nat) :
    peersAfter (log ++ [.success e pc i]) = TPeer.updateSuccess (peersAfter log) e := by
  induction log with
  | nil => rfl
  | cons m log ih =>
    cases m with
    | found q =>
      rw [List.cons_append, peersAfter, peersAfter, TPeer.updateSuccess, List.map_cons, ih]
      simp only [successes, failures, List.countP_append, List.countP_cons, List.countP_nil]
      by_cases h : q.endpoint = e
      · simp [h, TPeer.updateSuccess]
      · have h' : ¬ e = q.endpoint := fun h' => h h'.symm
        simp [h, h', TPeer.updateSuccess]
    | success e pc i => simpa [peersAfter] using ih
    | failed e i => simpa [peersAfter] using ih

theorem peersAfter_failed (log : List Mail) (e : Bytes) (i : Nat) :
    peersAfter (log ++ [.failed e i]) = TPeer.updateFailed (peersAfter log) e := by
  induction log with
  | nil => rfl
  | cons m log ih =>
    cases m with
    | found q =>
      rw [List.cons_append, peersAfter, peersAfter, TPeer.updateFailed, List.map_cons, ih]
      simp only [successes, failures, List.countP_append, List.countP_cons, List.countP_nil]
      by_cases h : q.endpoint = e
      · simp [h, TPeer.updateFailed]
      · have h' : ¬ e = q.endpoint := fun h' => h h'.symm
        simp [h, h', TPeer.updateFailed]
    | success e pc i => simpa [peersAfter] using ih
    | failed e i => simpa [peersAfter] using ih

/-- C47: after any history the peer list has one entry for each peer found, in order, with the numbers of successes and failures reported
for its endpoint since. -/
theorem C47_counters {w : World} {s : Sys} (hr : Among w s) : s.torrent.peers = peersAfter s.handled := by
  induction hr with
  | disk _ _ ih => exact ih
  | wrote _ _ _ _ _ _ _ ih => exact ih
  | init => rfl
  | @step s t hs hst ih =>
    have hinv := among_inv hs
    cases hst with
    | announce => exact ih
    | take => exact ih
    | finishOk => exact ih
    | finishErr => exact ih
    | finishPanic => exact ih
    | write => exact ih
    | success endpoint piece idx rest hd hm =>
      rcases hinv with h | ⟨info, n, h⟩
      · obtain ⟨p, e, -⟩ := h.mail _ (by rw [hm]; exact List.mem_cons_self ..)
        cases e
      · simp only [Sys.after]
        rw [(onSuccess_known h endpoint piece idx).1, peersAfter_success, ih]
    | failed endpoint idx rest hd hm shuffled hsh =>
      rcases hinv with h | ⟨info, n, h⟩
      · obtain ⟨p, e, -⟩ := h.mail _ (by rw [hm]; exact List.mem_cons_self ..)
        cases e
      · simp only [Sys.after]
        rw [(onFailed_known h shuffled endpoint idx).1, peersAfter_failed, ih]
    | collect p rest hd hm hi tcp f peerId room collected fs' hh hc =>
      simp only [Sys.after]
      rw [(onCollected_peers _ _ _).1, peersAfter_found, ← ih]
      rfl
    | found p rest hd hm info hi shuffles hn hsh =>
      simp only [Sys.after]
      rw [onReady_peers, peersAfter_found, ← ih]
      rfl

example : peersAfter [.found peer0, .failed peer0.endpoint 3, .found peer0, .failed peer0.endpoint 1, .success peer0.endpoint [] 2] =
    [⟨peer0.endpoint, 1, 2⟩, ⟨peer0.endpoint, 1, 1⟩] := by decide +kernel

/-! ### C48 -/

/-- C48: once metadata is known no handler panics; before, one does only when getting the metadata does, or when the metadata has no length,
piece length zero, or (in a debug build) a total length that overflows. Missing: exactly these cases (refuted below). -/
theorem C48_only_metadata_partial {w : World} {s t : Sys} (hr : Among w s) (hd : s.down = false) (hst : Step w s t) (ht : t.down = true) :
    s.torrent.info = none ∧ ∃ p tcp f peerId room collected fs, s.mail.head? = some (.found p) ∧
      (collectInfo w.build w.cwd s.fs (dialOf p.endpoint tcp) f peerId s.torrent.infoHash room : Res Unit _ × FS) = (collected, fs) ∧
      (collected = .panic ∨ ∃ info, collected = .ok (some info) ∧ (info.pieceLength = 0 ∨ (info.files = none ∧ info.length = none) ∨
        (w.build = .debug ∧ 2 ^ 64 ≤ contentLength info))) := by
  rcases among_inv hr with h | ⟨info, n, h⟩
  · refine ⟨h.info, ?_⟩
    cases hst with
    | announce => rw [hd] at ht; cases ht
    | take => rw [hd] at ht; cases ht
    | finishOk => rw [hd] at ht; cases ht
    | finishErr => rw [hd] at ht; cases ht
    | finishPanic => rw [hd] at ht; cases ht
    | write => rw [hd] at ht; cases ht
    | success endpoint piece idx rest hd hm =>
      obtain ⟨p, e, -⟩ := h.mail _ (by rw [hm]; exact List.mem_cons_self ..)
      cases e
    | failed endpoint idx rest hd hm =>
      obtain ⟨p, e, -⟩ := h.mail _ (by rw [hm]; exact List.mem_cons_self ..)
      cases e
    | found p rest hd hm info' hi => rw [h.info] at hi; cases hi
    | collect p rest hd' hm hi tcp f peerId room collected fs hh hc =>
      refine ⟨p, tcp, f, peerId, room, collected, fs, by rw [hm]; rfl, hc, ?_⟩
      cases collected with
      | hang => exact absurd rfl hh
      | panic => exact .inl rfl
      | err e =>
        exfalso
        unfold collectInfo at hc
        repeat' split at hc
        all_goals cases hc
      | ok o =>
        cases o with
        | none => cases ht
        | some info =>
          refine .inr ⟨info, rfl, ?_⟩
          rcases Nat.eq_zero_or_pos info.pieceLength with h0 | h0
          · exact .inl h0
          · refine .inr ?_
            simp only [Sys.after, Torrent.onCollected] at ht
            cases hf : info.files with
            | none =>
              cases hl : info.length with
              | none => exact .inl ⟨rfl, rfl⟩
              | some n =>
                exfalso
                have : (pieceTotal w.build info : Res Unit Nat) = .ok ((n + info.pieceLength - 1) / info.pieceLength) := by
                  unfold pieceTotal Info.getTotalLength
                  rw [hf, hl]
                  exact stepByLen_spec _ _ h0
                rw [this] at ht
                cases ht
            | some fs' =>
              right
              cases hb : w.build with
              | debug =>
                refine ⟨rfl, ?_⟩
                rcases Nat.lt_or_ge ((fs'.map File.length).sum) (2 ^ 64) with hs | hs
                · exfalso
                  have : (pieceTotal w.build info : Res Unit Nat) =
                      .ok (((fs'.map File.length).sum + info.pieceLength - 1) / info.pieceLength) := by
                    unfold pieceTotal Info.getTotalLength
                    rw [hf]
                    simp only [usum_of_lt _ _ hs]
                    exact stepByLen_spec _ _ h0
                  rw [this] at ht
                  cases ht
                · simp only [contentLength, hf]
                  exact hs
              | release =>
                exfalso
                have hu : ∃ k, (usum .release (fs'.map File.length) : Res Unit Nat) = .ok k := by
                  unfold usum
                  generalize fs'.map File.length = l
                  suffices H : ∀ a : Nat, ∃ k, l.foldl (fun acc x => acc >>= fun a => uadd .release a x) (.ok a : Res Unit Nat) = .ok k from H 0
                  induction l with
                  | nil => intro a; exact ⟨a, rfl⟩
                  | cons x l ih =>
                    intro a
                    obtain ⟨k, hk⟩ := ih ((a + x) % 2 ^ 64)
                    refine ⟨k, ?_⟩
                    rw [List.foldl_cons, ← hk]
                    congr 1
                    simp only [Res.bind_ok, uadd]
                    split
                    · rw [Nat.mod_eq_of_lt (by assumption)]
                    · rfl
                obtain ⟨k, hk⟩ := hu
                have : (pieceTotal w.build info : Res Unit Nat) = .ok ((k + info.pieceLength - 1) / info.pieceLength) := by
                  unfold pieceTotal Info.getTotalLength
                  rw [hf, hb]
                  simp only [hk]
                  exact stepByLen_spec _ _ h0
                rw [this] at ht
                cases ht
  · rw [(known_step h hst).up] at ht; cases ht

/-- A torrent whose info hash is twenty sevens. -/
def hash7 : Bytes := List.replicate 20 7

/-- The torrent actor handles its first peer, on an empty disk. -/
theorem first_peer (w : World) (net : Net) (f room : Nat) {collected : Res Unit (Option Info)}
    (hc : (collectInfo w.build w.cwd (fun _ => none) (.connected net) f [] hash7 room : Res Unit (Option Info) × FS).1 = collected)
    (hh : collected ≠ .hang) (hp : (((Torrent.new hash7).addPeer peer0).onCollected w.build collected).res = .panic) :
    ∃ s, Reachable w s ∧ s.down = true ∧ s.handled = [.found peer0] := by
  have hd : dialOf peer0.endpoint (fun _ => some net) = .connected net := by
    have : parseSocketV4 peer0.endpoint = some ([1, 2, 3, 4], 80) := by decide +kernel
    rw [dialOf, this]
  have s1 := Step.announce (w := w) (Sys.init hash7 (fun _ => none)) _ peer0 peer0_found
  have s2 := Step.collect (w := w) { Sys.init hash7 (fun _ => none) with mail := [.found peer0] } peer0 [] rfl rfl rfl (fun _ => some net) f [] room
    collected (collectInfo w.build w.cwd (fun _ => none) (.connected net) f [] hash7 room : Res Unit (Option Info) × FS).2 hh (by
      rw [hd, ← hc]; rfl)
  refine ⟨_, ⟨_, _, .tail (.tail (.refl _) s1) s2⟩, ?_, rfl⟩
  simp only [Sys.after]
  show (match (((Torrent.new hash7).addPeer peer0).onCollected w.build collected).res with | .ok () => false | _ => true) = true
  rw [hp]

/-- C48 refuted: a peer whose first message is a block message without a body makes the torrent actor, which gets the metadata itself, panic. -/
theorem C48_refuted (m : Build) (sha : Bytes → Bytes) : ∃ s, Reachable ⟨m, sha, []⟩ s ∧ s.down = true ∧ s.handled = [.found peer0] := by
  refine first_peer ⟨m, sha, []⟩ crashingPeer 0 0 (collected := .panic) ?_ (by simp) rfl
  show (collectInfo m [] (fun _ => none) (.connected crashingPeer) 0 [] hash7 0 : Res Unit (Option Info) × FS).1 = .panic
  cases m <;> decide +kernel

/-- Metadata with piece length zero, and metadata without a length. -/
def noPieceLength : Bytes := b!"d6:lengthi1e4:name1:a12:piece lengthi0e6:pieces1:pe"
def noLength : Bytes := b!"d4:name1:a12:piece lengthi1e6:pieces1:pe"

/-- C48 refuted: metadata with piece length zero, or without a length, is accepted from a peer and makes the torrent actor panic. -/
theorem C48_refuted_metadata (m : Build) (sha : Bytes → Bytes) (md : Bytes) (hmd : md = noPieceLength ∨ md = noLength) :
    (∃ info, (collectInfo m [] (fun _ => none) (.connected (metadataPeer hash7 md)) 9 [] hash7 1000 : Res Unit (Option Info) × FS).1 = .ok (some info)) ∧
    ∃ s, Reachable ⟨m, sha, []⟩ s ∧ s.down = true ∧ s.handled = [.found peer0] := by
  have main : ∀ (md : Bytes) (info : Info),
      (collectInfo m [] (fun _ => none) (.connected (metadataPeer hash7 md)) 9 [] hash7 1000 : Res Unit (Option Info) × FS).1 = .ok (some info) →
      (pieceTotal m info : Res Unit Nat) = .panic →
      (∃ info, (collectInfo m [] (fun _ => none) (.connected (metadataPeer hash7 md)) 9 [] hash7 1000 : Res Unit (Option Info) × FS).1 = .ok (some info)) ∧
      ∃ s, Reachable ⟨m, sha, []⟩ s ∧ s.down = true ∧ s.handled = [.found peer0] := by
    intro md info h1 h2
    refine ⟨⟨info, h1⟩, first_peer ⟨m, sha, []⟩ (metadataPeer hash7 md) 9 1000 h1 (by simp) ?_⟩
    simp only [Torrent.onCollected, h2]
  rcases hmd with rfl | rfl
  · exact main _ ⟨none, some 1, b!"a", 0, b!"p"⟩ (by cases m <;> decide +kernel) rfl
  · exact main _ ⟨none, none, b!"a", 1, b!"p"⟩ (by cases m <;> decide +kernel) rfl

/-- C48 refuted, and for good: such metadata stays in the cache, and with it in the cache any torrent actor for that info hash panics on its first
peer, whatever that peer does. -/
theorem C48_refuted_cached {w : World} {infoHash : Bytes} {info : Info} (h : 2 < infoHash.length) (ht : Typed info)
    (hn : (pieceTotal w.build info : Res Unit Nat) = .panic) {s t : Sys} (p : PeerEndpoint)
    (hs : s = { Sys.init infoHash (cachedFs w.cwd infoHash info) with mail := [.found p] }) (hst : Step w s t) (hh : t.handled ≠ []) : t.down = true := by
  subst hs
  cases hst with
  | announce => exact absurd rfl hh
  | take _ _ hq => cases hq
  | finishOk pre post r hb => simp [Sys.init] at hb
  | finishErr pre post r hb => simp [Sys.init] at hb
  | finishPanic pre post r hb => simp [Sys.init] at hb
  | write _ _ _ hr => cases hr
  | success _ _ _ _ _ hm => cases hm
  | failed _ _ _ _ hm => cases hm
  | found _ _ _ _ _ hi => cases hi
  | collect p' rest hd hm hi tcp f peerId room collected fs hnh hc =>
    have hc' : (Res.ok (some info), cachedFs w.cwd infoHash info) = (collected, fs) := by
      rw [← hc]
      exact (collect_cached h ht _ _ _ _).symm
    simp only [Prod.mk.injEq] at hc'
    rw [← hc'.1]
    simp only [Sys.after, Torrent.onCollected, hn]

example (m : Build) : Typed ⟨none, some 1, b!"a", 0, b!"p"⟩ ∧ (pieceTotal m ⟨none, some 1, b!"a", 0, b!"p"⟩ : Res Unit Nat) = .panic :=
  ⟨⟨by decide +kernel, by decide, (fun n h => by cases h; decide), (fun fs h => by cases h)⟩, rfl⟩

/-! ### C49 -/

/-- C49 refuted, for all runs: a piece whose worker panicked is never again waiting or in flight, and never handed to the writer. -/
theorem C49_refuted {w : World} {s t : Sys} (hr : Among w s) {i : Nat} (hi : i ∈ s.lost) (hst : Steps w s t) :
    i ∈ t.lost ∧ i ∉ waiting t ∧ i ∉ flight t ∧ i ∉ handed t := by
  have hl : i ∈ t.lost := by
    induction hst with
    | refl => exact hi
    | tail _ hst ih =>
      cases hst with
      | finishPanic => exact List.mem_append_left _ ih
      | _ => exact ih
  refine ⟨hl, ?_⟩
  rcases among_inv (among_steps hr hst) with h | ⟨info, n, h⟩
  · rw [h.lost] at hl; cases hl
  · have hp := h.perm.nodup_iff.mpr List.nodup_range
    have := fun (hm : i ∈ waiting t ++ flight t ++ handed t) => (List.nodup_append.mp hp).2.2 i hm i hl rfl
    simp only [List.mem_append] at this
    exact ⟨fun h => this (.inl (.inl h)), fun h => this (.inl (.inr h)), fun h => this (.inr h)⟩

/-- Non-vacuity: this happens in every world. -/
example (w : World) : ∃ s, Reachable w s ∧ 0 ∈ s.lost :=
  ⟨_, run_crashed (infoHash := List.replicate 20 7) (info := oneInfo) (by decide) oneInfo_typed (oneInfo_total _) (by decide), by simp [crashedSys]⟩

/-- C49: a download that ends with an error is retried: its piece goes back to the pool or is requested again at once, and a new request is
issued. Missing: downloads ending in a panic (refuted above). -/
theorem C49_error_retried_partial {w : World} {s t : Sys} {e : Bytes} {i : Nat} {rest : List Mail} (hr : Among w s)
    (hm : s.mail = .failed e i :: rest) (hst : Step w s t) (hh : t.handled = s.handled ++ [.failed e i]) :
    i ∈ waiting t ++ t.queue.map Request.idx ∧ t.queue.length = s.queue.length + 1 := by
  have hne : ∀ {m : Mail}, s.handled ≠ s.handled ++ [m] := by
    intro m e
    have := congrArg List.length e
    simp at this
  rcases among_inv hr with h | ⟨info, n, h⟩
  · obtain ⟨p, e, -⟩ := h.mail _ (by rw [hm]; exact List.mem_cons_self ..)
    cases e
  · cases hst with
    | announce => exact absurd hh hne
    | take => exact absurd hh hne
    | finishOk => exact absurd hh hne
    | finishErr => exact absurd hh hne
    | finishPanic => exact absurd hh hne
    | write => exact absurd hh hne
    | success _ _ _ _ _ hm' => rw [hm] at hm'; cases hm'
    | collect _ _ _ hm' => rw [hm] at hm'; cases hm'
    | found _ _ _ hm' => rw [hm] at hm'; cases hm'
    | failed e' i' rest' hd hm' shuffled hsh =>
      rw [hm] at hm'
      cases hm'
      have hsne : shuffled ≠ [] := by
        intro e0
        rw [e0] at hsh
        have := hsh.length_eq
        rw [peers_length.1] at this
        exact h.nonempty (List.length_eq_zero_iff.mp this.symm)
      obtain ⟨p, -, hpe, -, -⟩ := findSuitablePeer_ok (ε := Unit) hsne
      rw [Torrent.onFailed, h.pool]
      simp only [hpe, h.hasInfo, PiecePool.insert]
      cases hq : waiting s ++ [i] with
      | nil => simp at hq
      | cons j q =>
        simp only [requestNext_cons, Sys.after, waiting, Option.getD_some, List.map_append, List.map_cons, List.map_nil, List.length_append,
          List.length_singleton, and_true]
        have : i ∈ waiting s ++ [i] := by simp
        rw [hq] at this
        rcases List.mem_cons.mp this with rfl | this
        · simp
        · simp [this]

/-- Non-vacuity: in every world there is a run after which a failed download waits to be handled. -/
example (w : World) : ∃ s e, Reachable w s ∧ s.mail = [.failed e 0] ∧ s.down = false := by
  have h1 := run_started (w := w) (infoHash := List.replicate 20 7) (info := oneInfo) (by decide) oneInfo_typed (oneInfo_total _) (by decide)
  generalize cachedFs w.cwd (List.replicate 20 7) oneInfo = fs at h1
  have s1 := Step.take (w := w) (startedSys fs (List.replicate 20 7) oneInfo 1) ⟨peer0.endpoint, oneInfo, 0⟩ [] rfl (show 0 < 5 by decide)
  have s2 := Step.finishErr (w := w) { startedSys fs (List.replicate 20 7) oneInfo 1 with queue := [], busy := [⟨peer0.endpoint, oneInfo, 0⟩] }
    [] [] ⟨peer0.endpoint, oneInfo, 0⟩ rfl (fun _ => none) 0 [] .stream (by
      have : dialOf peer0.endpoint (fun _ => none) = .refused := by
        have : parseSocketV4 peer0.endpoint = some ([1, 2, 3, 4], 80) := by decide +kernel
        rw [dialOf, this]
      rw [this]
      rfl)
  exact ⟨_, _, ⟨_, _, h1.trans (.tail (.tail (.refl _) s1) s2)⟩, rfl, rfl⟩

end RustBit
