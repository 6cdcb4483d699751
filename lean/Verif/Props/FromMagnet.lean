/-
C78: the info hash of a magnet link is enough to get at the content.
-/
import Verif.Props.Finish
import Verif.Props.Metadata

namespace RustBit
open Spec

/-! ### Getting the metadata when it is not in the cache -/

/-- There is no metadata for the torrent in the cache, and there is room for it. -/
def NotCached (fs : FS) (cwd : Loc) (infoHash : Bytes) : Prop :=
  (fs (cwd ++ [b!"downloads"]) = some .dir ∨ fs (cwd ++ [b!"downloads"]) = none) ∧ fs (cacheLoc cwd infoHash) = none

theorem createDirAll_absent {fs : FS} {cwd : Loc} (h : fs (cwd ++ [b!"downloads"]) = none) :
    fs.createDirAll cwd [b!"downloads"] = (.ok (), fs.set (cwd ++ [b!"downloads"]) .dir) := by
  have hm : fs.mkdir cwd [b!"downloads"] = .ok (fs.set (cwd ++ [b!"downloads"]) .dir) := by
    have hn : hasNul [b!"downloads"] = false := by decide
    unfold FS.mkdir
    rw [hn]
    simp only [Bool.false_eq_true, if_false, List.getLast?_singleton, List.dropLast_singleton, FS.walk, Res.bind_ok]
    rw [if_neg (by decide), h]
  unfold FS.createDirAll
  rw [List.reverse_singleton, FS.createDirAllRev, List.reverse_singleton, hm]

theorem cacheLoc_ne (cwd : Loc) (infoHash : Bytes) : cacheLoc cwd infoHash ≠ cwd ++ [b!"downloads"] := by
  intro e
  have := congrArg List.length e
  simp [cacheLoc] at this

/-- Without a cache entry the metadata comes from the peer, or there is none and the cache stays empty. -/
theorem collectInfo_notCached {ε : Type} {m : Build} {cwd : Loc} {fs : FS} {infoHash : Bytes} (hlen : 2 < infoHash.length) (h : NotCached fs cwd infoHash)
    (dial : Dial) (f : Nat) (peerId : Bytes) (room : Nat) :
    ∃ (fs1 : FS) (fs2 : Info → FS), NotCached fs1 cwd infoHash ∧ (collectInfo m cwd fs dial f peerId infoHash room : Res ε (Option Info) × FS) =
      match getInfo m dial f peerId infoHash with
      | .ok i => (.ok (some i), fs2 i)
      | .err _ => (.ok none, fs1)
      | .panic => (.panic, fs1)
      | .hang => (.hang, fs1) := by
  obtain ⟨fs1, hc, hd, hn⟩ : ∃ fs1, fs.createDirAll cwd [b!"downloads"] = (.ok (), fs1) ∧ fs1 (cwd ++ [b!"downloads"]) = some .dir ∧
      fs1 (cacheLoc cwd infoHash) = none := by
    rcases h.1 with hd | hd
    · exact ⟨fs, createDirAll_exists hd, hd, h.2⟩
    · exact ⟨_, createDirAll_absent hd, by simp [FS.set], by simp [FS.set, cacheLoc_ne, h.2]⟩
  have hsafe := C62_safe infoHash
  obtain ⟨n1, n2, n3⟩ := hsafe.2.2.2 hlen
  have hp := cachePath_parse (hsafe.2.1 _ (by decide)) n1 n2
  have hnul : hasNul [b!"downloads", percentEncode infoHash] = false := by
    rw [← Bool.not_eq_true]
    intro hx
    simp only [hasNul, List.any_cons, List.any_nil, Bool.or_false, Bool.or_eq_true, List.contains_iff_mem] at hx
    rcases hx with hx | hx
    · exact absurd hx (by decide)
    · exact ((cache_plain hlen).2 _ (by simp)).2.2.2.2 hx
  have ho : fs1.openCreate cwd (PathBuf.parse (cachePath infoHash)) = .ok (cacheLoc cwd infoHash, fs1.set (cacheLoc cwd infoHash) (.file [])) := by
    have hloc : cwd ++ [b!"downloads"] ++ [percentEncode infoHash] = cacheLoc cwd infoHash := by simp [cacheLoc]
    rw [hp]
    unfold FS.openCreate
    simp only [hnul, Bool.or_false, Bool.false_eq_true, if_false, List.getLast?_cons_cons, List.getLast?_singleton,
      List.dropLast_cons_cons, List.dropLast_singleton, PathBuf.base, FS.walk]
    rw [if_neg (by decide), hd]
    simp only [Res.bind_ok]
    rw [if_neg n3, hloc, hn]
  refine ⟨fs1, fun i => (i.save cwd fs1 (cachePath infoHash) room).2, ⟨.inl hd, hn⟩, ?_⟩
  unfold collectInfo
  rw [downloads_comps]
  have e : (PathBuf.mk false [b!"downloads"] false).base cwd = cwd := rfl
  have hread : Info.fromFile cwd fs1 (cachePath infoHash) = .err (.noInfoFile (cachePath infoHash)) := by
    rw [Info.fromFile, readToString_cache hlen hd, readFile, hn]
    rfl
  simp only [e, hc, hread]
  cases getInfo m dial f peerId infoHash with
  | ok i =>
    simp only [Info.save, ho]
    by_cases hr : room < i.json.length
    · simp [hr]
    · simp [hr]
  | err e => rfl
  | panic => rfl
  | hang => rfl

/-! ### Until metadata is there -/

/-- As long as the torrent is alive and without metadata nothing is in the cache. -/
theorem notCached_reachable {w : World} {infoHash : Bytes} {fs : FS} (hlen : 2 < infoHash.length) (hn : NotCached fs w.cwd infoHash) {s : Sys}
    (hst : Steps w (Sys.init infoHash fs) s) : s.torrent.infoHash = infoHash ∧ (s.down = false → s.torrent.info = none → NotCached s.fs w.cwd infoHash) := by
  induction hst with
  | refl => exact ⟨rfl, fun _ _ => hn⟩
  | tail hs hstep ih =>
    rename_i s t
    have inv := among_inv (among_of hs)
    rcases inv with h | ⟨info, n, h⟩
    · cases hstep with
      | announce => exact ih
      | take r queue hq hb => rw [h.queue] at hq; cases hq
      | finishOk pre post r hb => rw [h.busy] at hb; simp at hb
      | finishErr pre post r hb => rw [h.busy] at hb; simp at hb
      | finishPanic pre post r hb => rw [h.busy] at hb; simp at hb
      | success endpoint piece idx rest hd hm =>
        obtain ⟨p, e, -⟩ := h.mail _ (by rw [hm]; exact List.mem_cons_self ..)
        cases e
      | failed endpoint idx rest hd hm =>
        obtain ⟨p, e, -⟩ := h.mail _ (by rw [hm]; exact List.mem_cons_self ..)
        cases e
      | found p rest hd hm info hi => rw [h.info] at hi; cases hi
      | write r ready hu hr => rw [h.ready] at hr; cases hr
      | collect p rest hd hm hi tcp f peerId room collected fs' hh hc =>
        have hash : ((s.torrent.addPeer p).onCollected w.build collected).torrent.infoHash = infoHash := by
          rw [← ih.1]
          unfold Torrent.onCollected
          repeat' split
          all_goals rfl
        refine ⟨hash, ?_⟩
        intro hdown hnone
        obtain ⟨fs1, fs2, h1, h2⟩ := collectInfo_notCached (ε := Unit) (m := w.build) hlen (ih.2 hd hi) (dialOf p.endpoint tcp) f peerId room
        rw [ih.1] at hc
        rw [hc] at h2
        simp only [Sys.after] at hdown hnone ⊢
        cases hg : getInfo w.build (dialOf p.endpoint tcp) f peerId infoHash with
        | ok i =>
          rw [hg] at h2
          simp only [Prod.mk.injEq] at h2
          rw [h2.1] at hdown hnone
          simp only [Torrent.onCollected] at hdown hnone
          cases hp : (pieceTotal w.build i : Res Unit Nat) <;> rw [hp] at hdown hnone <;> simp at hdown hnone
        | err e =>
          rw [hg] at h2
          simp only [Prod.mk.injEq] at h2
          rw [h2.2]
          exact h1
        | panic =>
          rw [hg] at h2
          simp only [Prod.mk.injEq] at h2
          rw [h2.2]
          exact h1
        | hang =>
          rw [hg] at h2
          simp only [Prod.mk.injEq] at h2
          exact absurd h2.1 hh
    · have h' := known_step h hstep
      refine ⟨?_, fun _ hx => (by rw [h'.hasInfo] at hx; cases hx)⟩
      rw [← ih.1]
      cases hstep with
      | announce | take | finishOk | finishErr | finishPanic | write => rfl
      | success endpoint piece idx rest hd hm =>
        obtain ⟨files, hfiles⟩ := getFiles_of_total h.total
        simp only [Sys.after, Torrent.onSuccess, h.hasInfo, hfiles, h.pool]
        cases waiting s <;> rfl
      | failed endpoint idx rest hd hm shuffled hs =>
        simp only [Sys.after, Torrent.onFailed, h.pool]
        split
        · simp only [h.hasInfo]
          unfold Torrent.requestNext
          split <;> rfl
        all_goals rfl
      | found p rest hd hm info hi shuffles =>
        simp only [Sys.after, Torrent.onReady]
        split
        · split <;> rfl
        · rfl
      | collect p rest hd hm hi => rw [h.hasInfo] at hi; cases hi

/-- A living torrent without metadata, with a message in its mailbox, gets the metadata that a peer serves. -/
theorem get_metadata_mail {w : World} {infoHash : Bytes} {fs : FS} {info : Info} {n : Nat} (hlen : 2 < infoHash.length) (hn : NotCached fs w.cwd infoHash)
    (hserve : ∃ net f, getInfo w.build (.connected net) f [] infoHash = .ok info) (htot : (pieceTotal w.build info : Res Unit Nat) = .ok n) {s : Sys}
    (hst : Steps w (Sys.init infoHash fs) s) (hup : s.down = false) (hi : s.torrent.info = none) (hm : s.mail ≠ []) :
    ∃ t, Steps w s t ∧ t.torrent.info = some info ∧ t.torrent.initiated = false ∧ t.lost = [] ∧ peersReported t = peersReported s ∧ t.mail = s.mail.tail ∧
      t.torrent.peers.length = s.torrent.peers.length + 1 ∧ (∀ G, AllGood G s → AllGood G t) := by
  obtain ⟨net, f, hg⟩ := hserve
  obtain ⟨hash, hnc⟩ := notCached_reachable hlen hn hst
  have hnc := hnc hup hi
  rcases among_inv (among_of hst) with h | ⟨info', n', h⟩
  · cases hmail : s.mail with
    | nil => exact absurd hmail hm
    | cons m rest =>
      obtain ⟨p, rfl, a, ha⟩ := h.mail m (by rw [hmail]; exact List.mem_cons_self ..)
      have hdial : dialOf p.endpoint (fun _ => some net) = .connected net := by rw [dialOf, ha]
      obtain ⟨fs1, fs2, -, h2⟩ := collectInfo_notCached (ε := Unit) (m := w.build) hlen hnc (dialOf p.endpoint (fun _ => some net)) f [] 0
      rw [hdial, hg] at h2
      refine ⟨_, .single (.collect s p rest hup hmail hi (fun _ => some net) f [] 0 (.ok (some info)) (fs2 info) (by simp) ?_), ?_, ?_, ?_,
        reported_after s _ rest ((s.torrent.addPeer p).onCollected w.build (.ok (some info))) hmail, rfl, ?_, ?_⟩
      · rw [hdial, hash]
        exact h2
      · simp only [Sys.after, Torrent.onCollected, htot]
      · simp only [Sys.after, Torrent.onCollected, htot, Torrent.addPeer]
        exact h.initiated
      · exact h.lost
      · simp only [Sys.after, Torrent.onCollected, htot, Torrent.addPeer, List.length_append, List.length_singleton]
      · intro G hgood
        refine allGood_same hgood ?_ ?_
        · intro e p i hx
          rw [hmail]
          exact List.mem_cons_of_mem _ hx
        · intro r hr
          simpa only [Sys.after, Torrent.onCollected, htot, List.append_nil] using hr
  · rw [h.hasInfo] at hi; cases hi

/-- A living torrent without metadata gets the metadata that a peer serves. -/
theorem get_metadata {w : World} {infoHash : Bytes} {fs : FS} {info : Info} {n : Nat} (hlen : 2 < infoHash.length) (hn : NotCached fs w.cwd infoHash)
    (hserve : ∃ net f, getInfo w.build (.connected net) f [] infoHash = .ok info) (htot : (pieceTotal w.build info : Res Unit Nat) = .ok n) {s : Sys}
    (hst : Steps w (Sys.init infoHash fs) s) (hup : s.down = false) (hi : s.torrent.info = none) :
    ∃ t, Steps w s t ∧ t.torrent.info = some info ∧ t.torrent.initiated = false ∧ t.lost = [] := by
  by_cases hm : s.mail = []
  · have st := Step.announce (w := w) s _ peer0 peer0_found
    obtain ⟨t, h1, h2, h3, h4, -⟩ := get_metadata_mail hlen hn hserve htot (.tail hst st) hup hi (by simp)
    exact ⟨t, (Steps.single st).trans h1, h2, h3, h4⟩
  · obtain ⟨t, h1, h2, h3, h4, -⟩ := get_metadata_mail hlen hn hserve htot hst hup hi hm
    exact ⟨t, h1, h2, h3, h4⟩

/-! ### Until the download starts -/

/-- A torrent with metadata that has not started handles a message, which is of one more peer, and then starts or has at most ten. -/
theorem hear_mail {w : World} {info : Info} {n : Nat} {s : Sys} (h : Known w info n s) (hpos : 0 < n) (hs : s.torrent.initiated = false) (hm : s.mail ≠ []) :
    ∃ t, Steps w s t ∧ t.lost = s.lost ∧ t.torrent.peers.length = s.torrent.peers.length + 1 ∧
      (t.torrent.initiated = true ∨ t.torrent.peers.length ≤ 10) ∧ peersReported t = peersReported s ∧ t.mail = s.mail.tail ∧
      (∀ G, AllGood G s → AllGood G t) := by
  obtain ⟨hf, -, -, hw⟩ := h.idle hs
  cases hmail : s.mail with
  | nil => exact absurd hmail hm
  | cons m rest =>
    cases m with
    | success e p i => simp [flight, hmail] at hf
    | failed e i => simp [flight, hmail] at hf
    | found p =>
      have hpeers : ∀ q ∈ (s.torrent.addPeer p).peers, Parses q.endpoint := by
        intro q hq
        rcases List.mem_append.mp hq with hq | hq
        · exact h.peers q hq
        · rw [List.mem_singleton.mp hq]
          exact h.mail _ (by rw [hmail]; exact List.mem_cons_self ..)
      obtain ⟨reqs, e1, e2, -⟩ := startRequests_spec info (s.torrent.addPeer p).peers (by simp [Torrent.addPeer]) hpeers
        (List.replicate 5 (s.torrent.addPeer p).peers) (waiting s) (fun l hl => by rw [List.eq_of_mem_replicate hl])
      have hpool : (s.torrent.addPeer p).pool = some (waiting s) := h.pool
      have hready : ((s.torrent.addPeer p).onReady info (List.replicate 5 (s.torrent.addPeer p).peers)).ready = [] := by
        unfold Torrent.onReady
        repeat' split
        all_goals rfl
      refine ⟨_, .single (.found s p rest h.up hmail info h.hasInfo (List.replicate 5 (s.torrent.addPeer p).peers) (by simp) ?_), rfl, ?_, ?_,
        reported_after s _ rest _ hmail, rfl, ?_⟩
      · intro l hl
        rw [List.eq_of_mem_replicate hl]
      · by_cases h10 : (s.torrent.addPeer p).peers.length > 10
        · have hini : (s.torrent.addPeer p).initiated = false := hs
          simp only [Sys.after, Torrent.onReady, h10, hini, decide_true, Bool.not_false, Bool.and_self, if_true, hpool, e1]
          simp [Torrent.addPeer]
        · simp only [Sys.after, Torrent.onReady, h10, decide_false, Bool.false_and, Bool.false_eq_true, if_false]
          simp [Torrent.addPeer]
      · have hne : reqs ≠ [] := by
          intro h0
          rw [h0, hw] at e2
          have := congrArg List.length e2
          simp at this
          omega
        by_cases h10 : (s.torrent.addPeer p).peers.length > 10
        · have hini : (s.torrent.addPeer p).initiated = false := hs
          simp only [Sys.after, Torrent.onReady, h10, hini, decide_true, Bool.not_false, Bool.and_self, if_true, hpool, e1]
          refine .inl ?_
          cases reqs with
          | nil => exact absurd rfl hne
          | cons => rfl
        · simp only [Sys.after, Torrent.onReady, h10, decide_false, Bool.false_and, Bool.false_eq_true, if_false]
          exact .inr (by omega)
      · intro G hgood
        refine allGood_same hgood ?_ ?_
        · intro e p i hx
          rw [hmail]
          exact List.mem_cons_of_mem _ hx
        · intro r hr
          simpa only [Sys.after, hready, List.append_nil] using hr

/-- A torrent with metadata that has not started hears of one more peer, and then starts or has at most ten. -/
theorem hear_peer {w : World} {info : Info} {n : Nat} {s : Sys} (h : Known w info n s) (hpos : 0 < n) (hs : s.torrent.initiated = false) :
    ∃ t, Steps w s t ∧ t.lost = s.lost ∧ t.torrent.peers.length = s.torrent.peers.length + 1 ∧
      (t.torrent.initiated = true ∨ t.torrent.peers.length ≤ 10) := by
  by_cases hm : s.mail = []
  · have st := Step.announce (w := w) s _ peer0 peer0_found
    obtain ⟨t, h1, h2, h3, h4, -⟩ := hear_mail (known_step h st) hpos hs (by simp)
    exact ⟨t, (Steps.single st).trans h1, h2, h3, h4⟩
  · obtain ⟨t, h1, h2, h3, h4, -⟩ := hear_mail h hpos hs hm
    exact ⟨t, h1, h2, h3, h4⟩

/-- With eleven peers, in its list or its mailbox, the download starts. -/
theorem start_mail {w : World} {info : Info} {n : Nat} (hpos : 0 < n) : ∀ (k : Nat) (s : Sys), s.mail.length = k → Known w info n s →
    11 ≤ s.torrent.peers.length + s.mail.length → s.torrent.peers.length ≤ 10 →
    ∃ t, Steps w s t ∧ t.lost = s.lost ∧ t.torrent.info = some info ∧ t.torrent.initiated = true ∧ peersReported t = peersReported s ∧
      (∀ G, AllGood G s → AllGood G t) := by
  intro k
  induction k with
  | zero => intro s hk h h11 h10; omega
  | succ k ih =>
    intro s hk h h11 h10
    by_cases hs : s.torrent.initiated = true
    · exact ⟨s, .refl s, rfl, h.hasInfo, hs, rfl, fun _ hg => hg⟩
    · obtain ⟨t, h1, h2, h3, h4, h5, h6, h7⟩ := hear_mail h hpos (by simpa using hs) (by intro h0; rw [h0] at hk; cases hk)
      have ht := known_steps h h1
      rcases h4 with h4 | h4
      · exact ⟨t, h1, h2, ht.hasInfo, h4, h5, h7⟩
      · have hlen : t.mail.length = k := by rw [h6, List.length_tail, hk]; omega
        obtain ⟨u, e1, e2, e3, e4, e5, e6⟩ := ih t hlen ht (by omega) h4
        exact ⟨u, h1.trans e1, by rw [e2, h2], e3, e4, by rw [e5, h5], fun G hg => e6 G (h7 G hg)⟩

theorem start_up {w : World} {info : Info} {n : Nat} (hpos : 0 < n) : ∀ (k : Nat) (s : Sys), 11 - s.torrent.peers.length = k → Known w info n s →
    ∃ t, Steps w s t ∧ t.lost = s.lost ∧ t.torrent.info = some info ∧ t.torrent.initiated = true := by
  intro k
  induction k using Nat.strongRecOn with
  | ind k ih =>
    intro s hk h
    by_cases hs : s.torrent.initiated = true
    · exact ⟨s, .refl s, rfl, h.hasInfo, hs⟩
    · obtain ⟨t, h1, h2, h3, h4⟩ := hear_peer h hpos (by simpa using hs)
      have ht := known_steps h h1
      rcases h4 with h4 | h4
      · exact ⟨t, h1, h2, ht.hasInfo, h4⟩
      · obtain ⟨u, e1, e2, e3⟩ := ih (11 - t.torrent.peers.length) (by omega) t rfl ht
        exact ⟨u, h1.trans e1, by rw [e2, h2], e3⟩

/-! ### C78 -/

/-- C78: a torrent is added by its info hash alone; the metadata is not in the cache. From every state in which the torrent is alive, has no other
metadata and no worker died, whatever peers did before, the download can be completed (peers that have metadata and content must turn up; they
can): then nothing is left to do and every non-empty file is the published one, followed by what was beyond
its listed length before, or a collision has been exhibited. Missing: metadata outside
of the conditions of C13, paths outside of the conditions of C66, dead workers, a dead torrent. -/
theorem C78_over_partial {w : World} {info : Info} {md d infoHash : Bytes} {fs : FS} {s : Sys} (hsha : ∀ b, (w.sha b).length = 20)
    (hlen : infoHash.length = 20) (hmd : IsBencode (infoDict info) md) (hfits : InfoFits info) (hne : InfoNonempty info) (hmdl : md.length < 2 ^ 64)
    (hd : Describes w.sha info d) (hfit : Fits info d) (hpos : 0 < d.length)
    (hlay : Placeable w.cwd fs (listedFiles info) d info.pieceLength) (hdl : ∀ f ∈ listedFiles info, f.path.head? ≠ some b!"downloads")
    (hnc : NotCached fs w.cwd infoHash) (hst : Steps w (Sys.init infoHash fs) s) (hup : s.down = false)
    (hi : ∀ i, s.torrent.info = some i → i = info) (hl : s.lost = []) :
    ∃ t, Steps w s t ∧ t.torrent.info = some info ∧ ((∃ r ∈ t.written, Collision w.sha r.piece (piece d info.pieceLength r.idx)) ∨
      (flight t = [] ∧ t.lost = [] ∧ t.ready = [] ∧ FilesOver fs t.fs w.cwd (listedFiles info) d)) := by
  have hn : (pieceTotal w.build info : Res Unit Nat) = .ok (pieceCount d.length info.pieceLength) := pieceTotal_of hd hfit.length hpos
  have hcount : 0 < pieceCount d.length info.pieceLength := Nat.div_pos (by have := hd.pieceLength; omega) hd.pieceLength
  obtain ⟨t, h1, h2, h3⟩ : ∃ t, Steps w s t ∧ t.torrent.info = some info ∧ t.lost = [] := by
    cases hx : s.torrent.info with
    | some i => exact ⟨s, .refl s, by rw [hx, hi i hx], hl⟩
    | none =>
      obtain ⟨t, h1, h2, -, h3⟩ := get_metadata (by omega) hnc (metadata_serves w.build hmd hfits hne hmdl hlen []) hn hst hup hx
      exact ⟨t, h1, h2, h3⟩
  obtain ⟨n, hk⟩ := among_known (among_of (hst.trans h1)) h2
  have hn' := known_count hk hd hfit.length
  obtain ⟨u, e1, e2, e3, e4⟩ := start_up (by rw [hn']; exact hcount) _ t rfl hk
  obtain ⟨v, f1, f2, -, -, -, f3⟩ := can_finish_over hsha (by omega) hd hfit hlay hdl ((hst.trans h1).trans e1) e3 e4 (by rw [e2, h3])
  exact ⟨v, (h1.trans e1).trans f1, f2, f3⟩

/-- C78 with room for the files: in the end they are right. Missing: as for `C78_over_partial`. -/
theorem C78_can_finish_partial {w : World} {info : Info} {md d infoHash : Bytes} {fs : FS} {s : Sys} (hsha : ∀ b, (w.sha b).length = 20)
    (hlen : infoHash.length = 20) (hmd : IsBencode (infoDict info) md) (hfits : InfoFits info) (hne : InfoNonempty info) (hmdl : md.length < 2 ^ 64)
    (hd : Describes w.sha info d) (hfit : Fits info d) (hpos : 0 < d.length)
    (hlay : Layout w.cwd fs (listedFiles info) d info.pieceLength) (hdl : ∀ f ∈ listedFiles info, f.path.head? ≠ some b!"downloads")
    (hnc : NotCached fs w.cwd infoHash) (hst : Steps w (Sys.init infoHash fs) s) (hup : s.down = false)
    (hi : ∀ i, s.torrent.info = some i → i = info) (hl : s.lost = []) :
    ∃ t, Steps w s t ∧ t.torrent.info = some info ∧ ((∃ r ∈ t.written, Collision w.sha r.piece (piece d info.pieceLength r.idx)) ∨
      (flight t = [] ∧ t.lost = [] ∧ t.ready = [] ∧ FilesRight t.fs w.cwd (listedFiles info) d)) := by
  obtain ⟨t, h1, h2, h3⟩ := C78_over_partial hsha hlen hmd hfits hne hmdl hd hfit hpos hlay.placeable hdl hnc hst hup hi hl
  exact ⟨t, h1, h2, h3.imp_right fun ⟨a, b, c, e⟩ => ⟨a, b, c, over_layout hlay e⟩⟩

theorem threeBytes_layout_empty (w : World) : Layout w.cwd (fun _ => none) (listedFiles (threeBytes w.sha)) [1, 2, 3] 2 where
  plain := (threeBytes_layout w []).plain
  separate := (threeBytes_layout w []).separate
  room := by
    intro f _
    exact ⟨fun q c _ _ _ => by simp, by simp, fun c hc => by simp at hc⟩
  length := rfl
  small := by decide
  pieceLength := by decide

theorem threeBytes_encode {sha : Bytes → Bytes} (hsha : ∀ b, (sha b).length = 20) :
    (threeBytes sha).encode = b!"d6:lengthi3e4:name1:a12:piece lengthi2e6:pieces40:" ++ (sha [1, 2] ++ sha [3]) ++ b!"e" := by
  have e : encBytes (sha [1, 2] ++ sha [3]) = b!"40:" ++ (sha [1, 2] ++ sha [3]) := by
    have : (sha [1, 2] ++ sha [3]).length = 40 := by simp [hsha]
    rw [encBytes, this]
    rfl
  have e2 : encodeDictEntry b!"pieces" (encBytes (sha [1, 2] ++ sha [3])) = b!"6:pieces40:" ++ (sha [1, 2] ++ sha [3]) := by
    rw [e]
    rfl
  have a0 : encodeDictEntry b!"files" (encOpt ((none : Option (List File)).map (fun fs => encVec (fs.map File.encode)))) = [] := by decide +kernel
  have a1 : encodeDictEntry b!"length" (encOpt ((some 3).map encUsize)) = b!"6:lengthi3e" := by decide +kernel
  have a2 : encodeDictEntry b!"name" (encStr b!"a") = b!"4:name1:a" := by decide +kernel
  have a3 : encodeDictEntry b!"piece length" (encUsize 2) = b!"12:piece lengthi2e" := by decide +kernel
  simp only [threeBytes, Info.encode, a0, a1, a2, a3, e2]
  simp

/-- Non-vacuity: in every world (with 20-byte hashes), from an empty disk and the info hash of the torrent of three bytes. -/
example (w : World) (hsha : ∀ b, (w.sha b).length = 20) : ∃ s, Steps w (Sys.init ((threeBytes w.sha).computeInfoHash w.sha) (fun _ => none)) s ∧
    ((∃ r ∈ s.written, Collision w.sha r.piece (piece [1, 2, 3] 2 r.idx)) ∨ readFile s.fs (w.cwd ++ [b!"a"]) = some [1, 2, 3]) := by
  have hascii : InfoAscii (threeBytes w.sha) := ⟨ascii_of_lit rfl, by intro fs h; cases h⟩
  obtain ⟨t, h1, -, h2⟩ := C78_can_finish_partial (md := (threeBytes w.sha).encode) (s := Sys.init ((threeBytes w.sha).computeInfoHash w.sha) (fun _ => none)) hsha (hsha _)
    (isBencode_info _ hascii) ⟨by show 1 < 2 ^ 64; decide, by simp [threeBytes, hsha], by show 2 < 2 ^ 64; decide, by intro n h; cases h; decide, by intro fs h; cases h⟩
    ⟨by show b!"a" ≠ [] ∧ validUtf8 b!"a" = true; decide +kernel, by
      intro h
      have := congrArg List.length h
      simp [threeBytes, hsha] at this, by intro fs h; cases h⟩
    (by rw [threeBytes_encode hsha]; simp [hsha])
    (threeBytes_describes hsha) ⟨by decide, by show pieceCount 3 2 ≤ 2 ^ 32; decide, by show 2 * pieceCount 3 2 < 2 ^ 64; decide⟩ (by decide)
    (threeBytes_layout_empty w) (by intro f hf; rw [List.mem_singleton.mp hf]; show some b!"a" ≠ some b!"downloads"; decide) ⟨.inr rfl, rfl⟩
    (.refl _) rfl (by intro i h; cases h) rfl
  refine ⟨t, h1, ?_⟩
  rcases h2 with h2 | ⟨-, -, -, h2⟩
  · exact .inl h2
  · exact .inr (h2 0 _ rfl (by show 0 < 3; decide))

/-! ### Refutation -/

/-- A torrent that died without metadata does nothing any more. -/
theorem dead_steps {w : World} {s t : Sys} (h : Fresh s) (hd : s.down = true) (hst : Steps w s t) : Fresh t ∧ t.down = true ∧ t.fs = s.fs := by
  induction hst with
  | refl => exact ⟨h, hd, rfl⟩
  | tail _ hstep ih =>
    obtain ⟨hf, hdn, hfs⟩ := ih
    cases hstep with
    | announce bytes p hp =>
      rcases fresh_step hf (.announce (w := w) _ bytes p hp) with hx | ⟨i, n, hx⟩
      · exact ⟨hx, hdn, hfs⟩
      · have := hx.up
        exact absurd (hdn.symm.trans this) (by simp)
    | take r queue hq hb => rw [hf.queue] at hq; cases hq
    | finishOk pre post r hb => rw [hf.busy] at hb; simp at hb
    | finishErr pre post r hb => rw [hf.busy] at hb; simp at hb
    | finishPanic pre post r hb => rw [hf.busy] at hb; simp at hb
    | success endpoint piece idx rest hx => rw [hdn] at hx; cases hx
    | failed endpoint idx rest hx => rw [hdn] at hx; cases hx
    | found p rest hx => rw [hdn] at hx; cases hx
    | collect p rest hx => rw [hdn] at hx; cases hx
    | write r ready hu hr => rw [hf.ready] at hr; cases hr

/-- C78 refuted: a single peer whose first message is a block message without a body, and the torrent never writes a file. -/
theorem C78_refuted (w : World) {infoHash : Bytes} (hlen : 2 < infoHash.length) : ∃ s, Steps w (Sys.init infoHash (fun _ => none)) s ∧
    s.handled = [.found peer0] ∧ ∀ t, Steps w s t → t.torrent.info = none ∧ ∀ l, readFile t.fs l = none := by
  have hd : dialOf peer0.endpoint (fun _ => some crashingPeer) = .connected crashingPeer := by
    have : parseSocketV4 peer0.endpoint = some ([1, 2, 3, 4], 80) := by decide +kernel
    rw [dialOf, this]
  have hc : (collectInfo w.build w.cwd (fun _ => none) (.connected crashingPeer) 0 [] infoHash 0 : Res Unit (Option Info) × FS) =
      (.panic, FS.set (fun _ => none) (w.cwd ++ [b!"downloads"]) .dir) := by
    have hread : Info.fromFile w.cwd (FS.set (fun _ => none) (w.cwd ++ [b!"downloads"]) .dir) (cachePath infoHash) = .err (.noInfoFile (cachePath infoHash)) := by
      rw [Info.fromFile, readToString_cache hlen (if_pos rfl), readFile]
      simp [FS.set, cacheLoc_ne]
    unfold collectInfo
    rw [downloads_comps]
    have e : (PathBuf.mk false [b!"downloads"] false).base w.cwd = w.cwd := rfl
    simp only [e, createDirAll_absent, hread]
    rfl
  have s1 := Step.announce (w := w) (Sys.init infoHash (fun _ => none)) _ peer0 peer0_found
  have s2 := Step.collect (w := w) { Sys.init infoHash (fun _ => none) with mail := [.found peer0] } peer0 [] rfl rfl rfl (fun _ => some crashingPeer) 0 [] 0
    .panic _ (by simp) (by rw [hd]; exact hc)
  have hs := Steps.tail (.tail (.refl _) s1) s2
  refine ⟨_, hs, rfl, ?_⟩
  intro t ht
  rcases among_inv (among_of hs) with h | ⟨i, n, h⟩
  · obtain ⟨h1, -, h3⟩ := dead_steps h rfl ht
    refine ⟨h1.info, ?_⟩
    intro l
    rw [h3]
    simp only [readFile, FS.set]
    split <;> rename_i hx
    · split at hx <;> cases hx
    · rfl
  · have := h.up
    cases this

end RustBit
