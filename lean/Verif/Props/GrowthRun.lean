/-
C126, C127: runs of a release build in which a file becomes longer than listed, and in which bytes beyond what is listed change.
-/
import Verif.Props.Growth
import Verif.Props.Download

namespace RustBit
open Spec

/-! ### An attempt -/

/-- Metadata of two files, of 2^64-64 and 2 bytes, in pieces of 64 bytes. -/
def vastInfo (pieces : Bytes) : Info := ⟨some [⟨[b!"a"], 2 ^ 64 - 64⟩, ⟨[b!"c"], 2⟩], none, b!"n", 64, pieces⟩

/-- A peer sends 72 bytes for the last piece, the hash of which they have (with a constant function for SHA-1). -/
theorem vast_attempt (pieces : Bytes) (h : (vastInfo pieces).getPiece (2 ^ 58 - 1) = (.ok (List.replicate 20 7) : Res PeerManagerError Bytes)) :
    downloadPiece (fun _ => List.replicate 20 7) .release (.connected (script [sampleHandshake (List.replicate 20 7) ++ sampleExtension b!"5" ++ sampleUnchoke ++
      blockMessage (2 ^ 58 - 1) 0 (List.replicate 72 1)])) 5 (List.replicate 20 1) (vastInfo pieces) (2 ^ 58 - 1) = .ok (List.replicate 72 1) := by
  have e : (initPeer (script [sampleHandshake (List.replicate 20 7) ++ sampleExtension b!"5" ++ sampleUnchoke ++
      blockMessage (2 ^ 58 - 1) 0 (List.replicate 72 1)]) (Peer.new ⟨[], 0⟩ (List.replicate 20 7) (List.replicate 20 1))).1 = .ok () := by decide +kernel
  have d : ((Downloadable.block 64 (2 ^ 58 - 1) (2 ^ 64 - 62)).download .release (script [sampleHandshake (List.replicate 20 7) ++ sampleExtension b!"5" ++ sampleUnchoke ++
      blockMessage (2 ^ 58 - 1) 0 (List.replicate 72 1)]) 5 (initPeer (script [sampleHandshake (List.replicate 20 7) ++ sampleExtension b!"5" ++ sampleUnchoke ++
      blockMessage (2 ^ 58 - 1) 0 (List.replicate 72 1)]) (Peer.new ⟨[], 0⟩ (List.replicate 20 7) (List.replicate 20 1))).2).1 = .ok (List.replicate 72 1) := by decide +kernel
  have t : ((vastInfo pieces).getTotalLength .release : Res PeerManagerError Nat) = .ok (2 ^ 64 - 62) := by
    show ((vastInfo []).getTotalLength .release : Res PeerManagerError Nat) = .ok (2 ^ 64 - 62)
    decide +kernel
  revert e d
  generalize script _ = net
  revert h
  generalize (2 ^ 58 - 1 : Nat) = idx
  generalize (2 ^ 64 - 62 : Nat) = len at t ⊢
  generalize List.replicate 72 (1 : UInt8) = piece
  intro h e d
  show (downloadRun _ _ _ _ _ _ _).1 = _
  unfold downloadRun
  rw [show (vastInfo pieces).computeInfoHash (fun _ => List.replicate 20 7) = List.replicate 20 7 from rfl, t, show (vastInfo pieces).pieceLength = 64 from rfl]
  generalize initPeer net _ = r at e d ⊢
  obtain ⟨r1, p⟩ := r
  cases e
  dsimp only at d ⊢
  generalize Downloadable.download _ _ _ _ _ = r at d ⊢
  obtain ⟨r1, p⟩ := r
  cases d
  dsimp only
  unfold Info.verifyPiece
  rw [h]
  rfl

/-- There is such a list of hashes. -/
theorem vast_pieces : ∃ pieces : Bytes, pieces.length = 20 * 2 ^ 58 ∧
    (vastInfo pieces).getPiece (2 ^ 58 - 1) = (.ok (List.replicate 20 7) : Res PeerManagerError Bytes) := by
  obtain ⟨n, hn⟩ : ∃ n, n = 20 * 2 ^ 58 := ⟨_, rfl⟩
  refine ⟨List.replicate n 7, by rw [List.length_replicate, hn], ?_⟩
  unfold Info.getPiece
  rw [chunksExact_getElem?]
  rw [show (vastInfo (List.replicate n 7)).pieces = List.replicate n 7 from rfl]
  rw [List.length_replicate, List.drop_replicate, List.take_replicate, if_pos (by omega), show min 20 (n - (2 ^ 58 - 1) * 20) = 20 by omega]

theorem vast_typed (pieces : Bytes) : Typed (vastInfo pieces) := by
  refine ⟨by show validUtf8 b!"n" = true; decide +kernel, by show 64 < 2 ^ 64; decide, (fun n h => by cases h), ?_⟩
  intro fs h
  cases h
  intro f hf
  simp only [List.mem_cons, List.not_mem_nil, or_false] at hf
  rcases hf with rfl | rfl
  · exact ⟨by decide, by intro p hp; simp only [List.mem_singleton] at hp; subst hp; decide +kernel⟩
  · exact ⟨by decide, by intro p hp; simp only [List.mem_singleton] at hp; subst hp; decide +kernel⟩

/-! ### The end of the piece wraps around -/

theorem vast_writers : (getFileWriters .release [⟨[b!"a"], 2 ^ 64 - 64⟩, ⟨[b!"c"], 2⟩] (List.replicate 72 1) (2 ^ 58 - 1) 64 : Res Unit (List FileWriter)) =
    .ok [⟨[b!"c"], 0, 72, List.replicate 72 1⟩] := by decide +kernel

/-- A disk with the metadata of the torrent in the cache, and something in the place of the second file. -/
def vastFs (info : Info) (x : Option Node) : FS := fun l => if l = [b!"c"] then x else cachedFs [] (List.replicate 20 7) info l

theorem vastFs_cached (info : Info) (x : Option Node) : Cached (vastFs info x) [] (List.replicate 20 7) info := by
  obtain ⟨h1, h2⟩ := cachedFs_cached [] (List.replicate 20 7) info
  exact ⟨h1, h2⟩

/-! ### Pieces that fail go round -/

/-- A torrent at rest but for requests for the pieces `q`, all to the same peer, the pieces `p` waiting. -/
structure GoingRound (info : Info) (fs : FS) (q p : List Nat) (s : Sys) : Prop where
  up : s.down = false
  mail : s.mail = []
  busy : s.busy = []
  workers : s.workers = 5
  ready : s.ready = []
  writer : s.writerUp = true
  disk : s.fs = fs
  hasInfo : s.torrent.info = some info
  nonempty : s.torrent.peers ≠ []
  same : ∀ x ∈ s.torrent.peers, x.endpoint = peer0.endpoint
  queue : s.queue = q.map fun i => ⟨peer0.endpoint, info, i⟩
  pool : s.torrent.pool = some p

theorem go_round {w : World} {info : Info} {fs : FS} {i j : Nat} {q p p' : List Nat} {s : Sys} (h : GoingRound info fs (i :: q) p s)
    (hp : p ++ [i] = j :: p') : ∃ s', Steps w s s' ∧ GoingRound info fs (q ++ [j]) p' s' := by
  have s1 := Step.take (w := w) s ⟨peer0.endpoint, info, i⟩ (q.map fun i => ⟨peer0.endpoint, info, i⟩) h.queue (by rw [h.busy, h.workers]; decide)
  have s2 := Step.finishErr (w := w) { s with queue := q.map fun i => ⟨peer0.endpoint, info, i⟩, busy := s.busy ++ [⟨peer0.endpoint, info, i⟩] } [] [] ⟨peer0.endpoint, info, i⟩
    (by show s.busy ++ _ = _; rw [h.busy, List.nil_append]) (fun _ => none) 0 [] .stream rfl
  have hm : s.mail ++ [Mail.failed peer0.endpoint i] = [.failed peer0.endpoint i] := by rw [h.mail]; rfl
  have s3 := Step.failed (w := w) { s with queue := q.map fun i => ⟨peer0.endpoint, info, i⟩, busy := [], mail := s.mail ++ [.failed peer0.endpoint i] }
    peer0.endpoint i [] h.up hm _ (List.Perm.refl _)
  refine ⟨_, .tail (.tail (.tail (.refl _) s1) s2) s3, ?_⟩
  have hne : TPeer.updateFailed s.torrent.peers peer0.endpoint ≠ [] := by
    have := h.nonempty
    simpa [TPeer.updateFailed] using this
  have hsame : ∀ x ∈ TPeer.updateFailed s.torrent.peers peer0.endpoint, x.endpoint = peer0.endpoint := by
    intro x hx
    obtain ⟨y, hy, rfl⟩ := List.mem_map.mp hx
    have := h.same y hy
    split <;> exact this
  obtain ⟨x, hx, e, -, -⟩ := findSuitablePeer_ok (ε := Unit) hne
  rw [hsame x hx] at e
  have ho : s.torrent.onFailed (TPeer.updateFailed s.torrent.peers peer0.endpoint) peer0.endpoint i =
      ⟨.ok (), { s.torrent with pool := some p', peers := TPeer.updateFailed s.torrent.peers peer0.endpoint }, [⟨peer0.endpoint, info, j⟩], []⟩ := by
    unfold Torrent.onFailed
    rw [h.pool]
    dsimp only
    rw [e, h.hasInfo]
    dsimp only
    rw [PiecePool.insert, hp]
    rfl
  dsimp only
  rw [ho]
  exact ⟨rfl, rfl, rfl, h.workers, by show s.ready ++ [] = []; rw [h.ready]; rfl, h.writer, h.disk, h.hasInfo, hne, hsame,
    by show _ ++ _ = _; rw [List.map_append]; rfl, rfl⟩

/-- Any piece that is asked for or waiting is asked for next, sooner or later. -/
theorem go_rounds {w : World} {info : Info} {fs : FS} : ∀ (l1 : List Nat) {i : Nat} {l2 q p : List Nat} {s : Sys}, GoingRound info fs q p s → q ≠ [] →
    q ++ p = l1 ++ i :: l2 → ∃ s' q' p', Steps w s s' ∧ GoingRound info fs (i :: q') p' s' := by
  intro l1
  induction l1 with
  | nil =>
    intro i l2 q p s h hq e
    obtain ⟨a, q, rfl⟩ := List.exists_cons_of_ne_nil hq
    cases e
    exact ⟨s, q, p, .refl _, h⟩
  | cons a l1 ih =>
    intro i l2 q p s h hq e
    obtain ⟨b, q, rfl⟩ := List.exists_cons_of_ne_nil hq
    have e2 := List.cons.inj e
    obtain rfl := e2.1
    obtain ⟨j, p', hp⟩ := List.exists_cons_of_ne_nil (show p ++ [b] ≠ [] by simp)
    obtain ⟨s1, h1, h2⟩ := go_round (w := w) h hp
    obtain ⟨s2, q', p'', h3, h4⟩ := ih (i := i) (l2 := l2 ++ [b]) h2 (by simp) (by
      rw [List.append_assoc, List.singleton_append, ← hp, ← List.append_assoc]
      rw [show q ++ p = l1 ++ i :: l2 from e2.2]
      simp)
    exact ⟨s2, q', p'', h1.trans h3, h4⟩

/-- A run of the torrent up to the writing of the last piece. -/
theorem vast_run (pieces : Bytes) (hp : (vastInfo pieces).getPiece (2 ^ 58 - 1) = (.ok (List.replicate 20 7) : Res PeerManagerError Bytes)) {fs fs' : FS}
    (hc : Cached fs [] (List.replicate 20 7) (vastInfo pieces))
    (hw1 : (writeAllParts [] fs [⟨[b!"c"], 0, 72, List.replicate 72 1⟩] : Res Unit Unit × FS) = (.ok (), fs')) :
    ∃ s, Steps ⟨.release, fun _ => List.replicate 20 7, []⟩ (Sys.init (List.replicate 20 7) fs) s ∧ s.torrent.info = some (vastInfo pieces) ∧ s.fs = fs' := by
  have hn : (pieceTotal .release (vastInfo pieces) : Res Unit Nat) = .ok (2 ^ 58) := by
    show (pieceTotal .release (vastInfo []) : Res Unit Nat) = .ok (2 ^ 58)
    decide +kernel
  have hatt := vast_attempt pieces hp
  have hws := vast_writers
  generalize hN : (2 ^ 58 : Nat) = n at hn hatt hws
  have h5 : 5 ≤ n := by omega
  have hlast : List.range n = List.range (n - 1) ++ [n - 1] := by
    have h : ∀ m : Nat, 5 ≤ m → List.range m = List.range (m - 1) ++ [m - 1] := by
      intro m hm
      rw [← List.range_succ]
      exact congrArg List.range (show m = m - 1 + 1 by omega)
    exact h n h5
  have hrun := run_started_on (w := ⟨.release, fun _ => List.replicate 20 7, []⟩) (infoHash := List.replicate 20 7) (by decide) (vast_typed pieces) hc hn (by omega)
  have hturn : GoingRound (vastInfo pieces) fs ((List.range n).take 5) ((List.range n).drop 5)
      (startedSys fs (List.replicate 20 7) (vastInfo pieces) n) :=
    ⟨rfl, rfl, rfl, rfl, rfl, rfl, rfl, rfl, by simp [startedSys], (by
      intro x hx
      rw [List.eq_of_mem_replicate hx]
      rfl), rfl, rfl⟩
  obtain ⟨s1, q, p, h1, h2⟩ := go_rounds (w := ⟨.release, fun _ => List.replicate 20 7, []⟩) (List.range (n - 1)) (i := n - 1) (l2 := []) hturn
    (by
      intro e
      have := congrArg List.length e
      rw [List.length_take, List.length_range, List.length_nil] at this
      omega)
    (by rw [List.take_append_drop]; exact hlast)
  have s2 := Step.take (w := ⟨.release, fun _ => List.replicate 20 7, []⟩) s1 ⟨peer0.endpoint, vastInfo pieces, n - 1⟩ _ h2.queue (by rw [h2.busy, h2.workers]; decide)
  generalize script _ = net at hatt
  generalize List.replicate 72 (1 : UInt8) = piece at hatt hws hw1
  have s3 := Step.finishOk (w := ⟨.release, fun _ => List.replicate 20 7, []⟩) { s1 with queue := q.map fun i => ⟨peer0.endpoint, vastInfo pieces, i⟩, busy := s1.busy ++ [⟨peer0.endpoint, vastInfo pieces, n - 1⟩] } [] []
    ⟨peer0.endpoint, vastInfo pieces, n - 1⟩ (by show s1.busy ++ _ = _; rw [h2.busy, List.nil_append]) (fun _ => some net) 5 (List.replicate 20 1) piece hatt
  have s4 := Step.success (w := ⟨.release, fun _ => List.replicate 20 7, []⟩) { s1 with queue := q.map fun i => ⟨peer0.endpoint, vastInfo pieces, i⟩, busy := [], mail := s1.mail ++ [.success peer0.endpoint piece (n - 1)] }
    peer0.endpoint piece (n - 1) [] h2.up (by show s1.mail ++ _ = _; rw [h2.mail]; rfl)
  have ho : ∃ t reqs, s1.torrent.onSuccess peer0.endpoint piece (n - 1) = ⟨.ok (), t, reqs, [⟨piece, [⟨[b!"a"], 2 ^ 64 - 64⟩, ⟨[b!"c"], 2⟩], n - 1, 64⟩]⟩ ∧
      t.info = some (vastInfo pieces) := by
    unfold Torrent.onSuccess
    rw [h2.hasInfo]
    dsimp only
    rw [show (vastInfo pieces).getFiles = .ok [⟨[b!"a"], 2 ^ 64 - 64⟩, ⟨[b!"c"], 2⟩] from rfl]
    dsimp only
    rw [h2.pool]
    cases p with
    | nil => exact ⟨_, _, rfl, rfl⟩
    | cons a p => exact ⟨_, _, rfl, rfl⟩
  obtain ⟨t, reqs, ho, hi⟩ := ho
  dsimp only at s4
  rw [ho] at s4
  have hu := (show ∃ u', Step ⟨.release, fun _ => List.replicate 20 7, []⟩ _ u' ∧ u'.writerUp = true ∧
      u'.ready = [⟨piece, [⟨[b!"a"], 2 ^ 64 - 64⟩, ⟨[b!"c"], 2⟩], n - 1, 64⟩] ∧ u'.fs = s1.fs ∧ u'.torrent.info = some (vastInfo pieces) from
    ⟨_, s4, h2.writer, by show s1.ready ++ _ = _; rw [h2.ready, List.nil_append], rfl, hi⟩)
  obtain ⟨u, s4, hu1, hu2, hu3, hu4⟩ := hu
  have s5 := Step.write (w := ⟨.release, fun _ => List.replicate 20 7, []⟩) u ⟨piece, [⟨[b!"a"], 2 ^ 64 - 64⟩, ⟨[b!"c"], 2⟩], n - 1, 64⟩ []
    hu1 hu2 (.ok ()) fs' (by
      show writePiece _ _ u.fs _ _ _ _ = _
      rw [hu3, h2.disk, writePiece, hws]
      exact hw1)
  exact ⟨_, (hrun.trans h1).trans (.tail (.tail (.tail (.tail (.refl _) s2) s3) s4) s5), hu4, rfl⟩

/-- What is listed. -/
theorem vast_lists (pieces : Bytes) (hl : pieces.length = 20 * 2 ^ 58) : total (listedFiles (vastInfo pieces)) < 2 ^ 64 ∧
    (vastInfo pieces).pieces.length = 20 * pieceCount (total (listedFiles (vastInfo pieces))) (vastInfo pieces).pieceLength ∧
    (⟨[b!"c"], 2⟩ : File) ∈ listedFiles (vastInfo pieces) ∧
    ∀ y ∈ listedFiles (vastInfo pieces), place [] y.path = place [] [b!"c"] → y.length = 2 := by
  refine ⟨?_, ?_, ?_, ?_⟩
  · show total (listedFiles (vastInfo [])) < 2 ^ 64
    decide +kernel
  · show pieces.length = 20 * pieceCount (total (listedFiles (vastInfo []))) 64
    rw [hl]
    decide +kernel
  · simp [vastInfo, listedFiles]
  · intro y hy e
    simp only [vastInfo, listedFiles, List.mem_cons, List.not_mem_nil, or_false] at hy
    rcases hy with rfl | rfl
    · exact absurd e (by decide +kernel)
    · rfl

/-- C126 refuted, by a run: a release build, two files of 2^64-64 and 2 bytes in pieces of 64 bytes, and a peer that sends 72 bytes, with the hash listed, for the last piece.
The position of their end wraps around, and all 72 bytes are written to the second file. (Metadata with so many pieces are larger than any memory. The smaller the number of
pieces the more messages are needed for the last one, as its length is computed wrongly as well.) -/
theorem C126_refuted_run : ∃ (w : World) (infoHash : Bytes) (fs : FS) (s : Sys) (info : Info) (x : File), w.build = .release ∧ (∀ b, (w.sha b).length = 20) ∧
    Steps w (Sys.init infoHash fs) s ∧ s.torrent.info = some info ∧ info.computeInfoHash w.sha = infoHash ∧ total (listedFiles info) < 2 ^ 64 ∧
    info.pieces.length = 20 * pieceCount (total (listedFiles info)) info.pieceLength ∧ x ∈ listedFiles info ∧
    (∀ y ∈ listedFiles info, place w.cwd y.path = place w.cwd x.path → y.length = 2) ∧
    fs (place w.cwd x.path) = none ∧ sizeAt s.fs (place w.cwd x.path) = 72 := by
  obtain ⟨pieces, hl, hp⟩ := vast_pieces
  obtain ⟨s, h1, h2, h3⟩ := vast_run pieces hp (vastFs_cached (vastInfo pieces) none) (fs' := _) rfl
  obtain ⟨l1, l2, l3, l4⟩ := vast_lists pieces hl
  exact ⟨_, _, _, s, vastInfo pieces, ⟨[b!"c"], 2⟩, rfl, fun _ => List.length_replicate, h1, h2, rfl, l1, l2, l3, l4, rfl, by rw [h3]; rfl⟩

set_option maxRecDepth 4000 in
/-- C127 refuted, by such a run: the third byte of a file changes of which the torrent lists two. -/
theorem C127_refuted_run : ∃ (w : World) (infoHash : Bytes) (fs : FS) (s : Sys) (info : Info) (x : File) (c c' : Bytes), w.build = .release ∧ (∀ b, (w.sha b).length = 20) ∧
    Steps w (Sys.init infoHash fs) s ∧ s.torrent.info = some info ∧ info.computeInfoHash w.sha = infoHash ∧ total (listedFiles info) < 2 ^ 64 ∧
    info.pieces.length = 20 * pieceCount (total (listedFiles info)) info.pieceLength ∧ x ∈ listedFiles info ∧
    (∀ y ∈ listedFiles info, place w.cwd y.path = place w.cwd x.path → y.length = 2) ∧
    fs (place w.cwd x.path) = some (.file c) ∧ s.fs (place w.cwd x.path) = some (.file c') ∧ c[2]? = some 9 ∧ c'[2]? = some 1 := by
  obtain ⟨pieces, hl, hp⟩ := vast_pieces
  obtain ⟨s, h1, h2, h3⟩ := vast_run pieces hp (vastFs_cached (vastInfo pieces) (some (.file [9, 9, 9]))) (fs' := _) rfl
  obtain ⟨l1, l2, l3, l4⟩ := vast_lists pieces hl
  exact ⟨_, _, _, s, vastInfo pieces, ⟨[b!"c"], 2⟩, [9, 9, 9], List.replicate 72 1, rfl, fun _ => List.length_replicate, h1, h2, rfl, l1, l2, l3, l4, rfl, by rw [h3]; rfl, rfl, rfl⟩

end RustBit
