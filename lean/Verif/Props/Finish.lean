/-
C42, C43 and C66: from every state of a started torrent in which no worker died, the download can be completed.
-/
import Verif.Props.EndToEnd
import Verif.Props.Honest
import Verif.Spec.Ends

namespace RustBit
open Spec

/-- Work left, in steps: a piece in the pool or requested has to be taken, downloaded and handled; a failure makes a new request. -/
def mailWork : List Mail → Nat
  | [] => 0
  | .failed _ _ :: l => 4 + mailWork l
  | _ :: l => 1 + mailWork l

theorem mailWork_append (a b : List Mail) : mailWork (a ++ b) = mailWork a + mailWork b := by
  induction a with
  | nil => simp [mailWork]
  | cons m a ih => cases m <;> simp only [List.cons_append, mailWork, ih] <;> omega

/-- Work left in the whole system. -/
def work (s : Sys) : Nat := 3 * (waiting s).length + 3 * s.queue.length + 2 * s.busy.length + mailWork s.mail

theorem pop_total (q : PiecePool) : q.pop.2.length + q.pop.1.toList.length = q.length := by
  cases q <;> simp [PiecePool.pop]

theorem requestNext_total (t : Torrent) (info : Info) (e : Bytes) (pool : PiecePool) :
    (t.requestNext info e pool).1.initiated = t.initiated ∧
    ((t.requestNext info e pool).1.pool.getD []).length + (t.requestNext info e pool).2.length = pool.length := by
  cases pool with
  | nil => exact ⟨rfl, rfl⟩
  | cons i q => exact ⟨rfl, rfl⟩

/-- All pieces on their way to the writer, and all the writer has taken, satisfy `G`. -/
def AllGood (G : Nat → Bytes → Prop) (s : Sys) : Prop :=
  (∀ e p i, Mail.success e p i ∈ s.mail → G i p) ∧ ∀ r ∈ s.written ++ s.ready, G r.idx r.piece

theorem allGood_same {G : Nat → Bytes → Prop} {s t : Sys} (h : AllGood G s) (hm : ∀ e p i, Mail.success e p i ∈ t.mail → Mail.success e p i ∈ s.mail)
    (hr : ∀ r, r ∈ t.written ++ t.ready → r ∈ s.written ++ s.ready) : AllGood G t :=
  ⟨fun e p i hx => h.1 e p i (hm e p i hx), fun r hx => h.2 r (hr r hx)⟩

theorem reported_after (s : Sys) (msg : Mail) (rest : List Mail) (h : Outcome) (hm : s.mail = msg :: rest) :
    peersReported (s.after msg rest h) = peersReported s := by
  simp only [peersReported, Sys.after, hm, List.append_assoc, List.singleton_append]

/-- Some step makes progress as long as something is in flight, if the pieces can be downloaded. -/
theorem work_step {w : World} {info : Info} {n : Nat} {s : Sys} (G : Nat → Bytes → Prop) (h : Known w info n s) (hs : s.torrent.initiated = true)
    (hl : s.lost.length < 5)
    (serve : ∀ i, i < n → ∃ net f piece, downloadPiece w.sha w.build (.connected net) f [] info i = .ok piece ∧ G i piece)
    (hf : flight s ≠ []) :
    ∃ t, Step w s t ∧ work t < work s ∧ t.lost = s.lost ∧ t.torrent.initiated = true ∧ peersReported t = peersReported s ∧
      t.written = s.written ∧ (AllGood G s → AllGood G t) := by
  cases hm : s.mail with
  | cons m rest =>
    cases m with
    | found p =>
      refine ⟨_, .found s p rest h.up hm info h.hasInfo (List.replicate 5 (s.torrent.addPeer p).peers) (by simp) ?_, ?_, rfl, ?_, reported_after s _ rest _ hm, rfl, ?_⟩
      · intro l hl
        rw [List.eq_of_mem_replicate hl]
      · simp [work, Sys.after, Torrent.onReady, Torrent.addPeer, hs, hm, mailWork, waiting]
      · simp [Sys.after, Torrent.onReady, Torrent.addPeer, hs]
      · intro hg
        refine allGood_same hg ?_ ?_
        · intro e p i hx
          rw [hm]
          exact List.mem_cons_of_mem _ hx
        · intro r hr
          simpa [Sys.after, Torrent.onReady, Torrent.addPeer, hs] using hr
    | success e piece i =>
      obtain ⟨files, hfiles⟩ := getFiles_of_total h.total
      refine ⟨_, .success s e piece i rest h.up hm, ?_, rfl, ?_, reported_after s _ rest _ hm, rfl, ?_⟩
      · have := (requestNext_total { s.torrent with peers := TPeer.updateSuccess s.torrent.peers e } info e (waiting s)).2
        simp only [work, Sys.after, Torrent.onSuccess, h.hasInfo, hfiles, h.pool, hm, mailWork, List.length_append]
        simp only [h.hasInfo, h.pool] at this
        simp only [waiting] at this ⊢
        omega
      · simp only [Sys.after]
        rw [(onSuccess_known h e piece i).2]
        exact hs
      · intro hg
        refine ⟨fun e' p' i' hx => hg.1 e' p' i' (by rw [hm]; exact List.mem_cons_of_mem _ hx), ?_⟩
        intro r hr
        simp only [Sys.after, Torrent.onSuccess, h.hasInfo, hfiles, h.pool] at hr
        rw [← List.append_assoc] at hr
        rcases List.mem_append.mp hr with hr | hr
        · exact hg.2 r hr
        · rw [List.mem_singleton.mp hr]
          exact hg.1 e piece i (by rw [hm]; exact List.mem_cons_self ..)
    | failed e i =>
      have hne : TPeer.updateFailed s.torrent.peers e ≠ [] := by
        intro h0
        have := congrArg List.length h0
        rw [(peers_length (e := e)).1] at this
        exact h.nonempty (List.length_eq_zero_iff.mp this)
      obtain ⟨p, -, e1, -, -⟩ := findSuitablePeer_ok (ε := Unit) hne
      refine ⟨_, .failed s e i rest h.up hm _ (.refl _), ?_, rfl, ?_, reported_after s _ rest _ hm, rfl, ?_⟩
      · have := (requestNext_total { s.torrent with pool := some (PiecePool.insert (waiting s) i), peers := TPeer.updateFailed s.torrent.peers e } info
          p.endpoint (PiecePool.insert (waiting s) i)).2
        simp only [work, Sys.after, Torrent.onFailed, h.pool, e1, h.hasInfo, hm, mailWork, List.length_append]
        simp only [h.hasInfo] at this
        simp only [PiecePool.insert, List.length_append, List.length_singleton] at this
        simp only [waiting, PiecePool.insert] at this ⊢
        omega
      · simp only [Sys.after]
        rw [(onFailed_known h _ e i).2]
        exact hs
      · intro hg
        refine allGood_same hg ?_ ?_
        · intro e p i hx
          rw [hm]
          exact List.mem_cons_of_mem _ hx
        · intro r hr
          simpa [Sys.after, Torrent.onFailed, h.pool, e1, h.hasInfo] using hr
  | nil =>
    cases hb : s.busy with
    | cons r post =>
      obtain ⟨hri, a, ha⟩ := h.requests r (by rw [hb]; simp)
      have hlt : r.idx < n := by
        have : r.idx ∈ waiting s ++ flight s ++ handed s ++ s.lost := by
          simp [flight, hb]
        exact List.mem_range.mp (h.perm.mem_iff.mp this)
      obtain ⟨net, f, piece, e, hgp⟩ := serve r.idx hlt
      refine ⟨_, .finishOk s [] post r hb (fun _ => some net) f [] piece ?_, ?_, rfl, hs, by simp [peersReported], rfl, ?_⟩
      · rw [dialOf, ha, hri]
        exact e
      · simp only [work, hb, hm, waiting, List.length_cons, List.nil_append, mailWork]
        omega
      · intro hg
        refine ⟨?_, hg.2⟩
        intro e' p' i' hx
        simp only [hm, List.nil_append, List.mem_singleton, Mail.success.injEq] at hx
        rw [hx.2.1, hx.2.2]
        exact hgp
    | nil =>
      cases hq : s.queue with
      | nil => simp [flight, hm, hb, hq, reports] at hf
      | cons r q =>
        refine ⟨_, .take s r q hq ?_, ?_, rfl, hs, rfl, rfl, fun hg => hg⟩
        · have := h.workers
          rw [hb]
          simp
          omega
        · simp only [work, hb, hm, hq, waiting, List.length_cons, List.length_append, List.length_nil]
          omega

theorem work_steps {w : World} {info : Info} {n : Nat} (G : Nat → Bytes → Prop)
    (serve : ∀ i, i < n → ∃ net f piece, downloadPiece w.sha w.build (.connected net) f [] info i = .ok piece ∧ G i piece) :
    ∀ (k : Nat) (s : Sys), work s = k → Known w info n s → s.torrent.initiated = true → s.lost.length < 5 →
    ∃ t, Steps w s t ∧ flight t = [] ∧ t.lost = s.lost ∧ t.torrent.initiated = true ∧ peersReported t = peersReported s ∧
      t.written = s.written ∧ (AllGood G s → AllGood G t) := by
  intro k
  induction k using Nat.strongRecOn with
  | ind k ih =>
    intro s hk h hs hl
    by_cases hf : flight s = []
    · exact ⟨s, .refl s, hf, rfl, hs, rfl, rfl, fun hg => hg⟩
    · obtain ⟨t, h1, h2, h3, h4, hp, hw, hg⟩ := work_step G h hs hl serve hf
      obtain ⟨u, h5, h6, h7, h8, hp', hw', hg'⟩ := ih (work t) (by omega) t rfl (known_step h h1) h4 (by rw [h3]; exact hl)
      exact ⟨u, Steps.trans (Steps.single h1) h5, h6, by rw [h7, h3], h8, by rw [hp', hp], by rw [hw', hw], fun x => hg' (hg x)⟩

/-- The numbers involved fit into the types of the program: the length of the torrent and the end of the last piece in 64 bits, the number
of pieces in 32 bits. -/
structure Fits (info : Info) (d : Bytes) : Prop where
  length : d.length < 2 ^ 64
  pieces : pieceCount d.length info.pieceLength ≤ 2 ^ 32
  last : info.pieceLength * pieceCount d.length info.pieceLength < 2 ^ 64

theorem serve_of {w : World} {info : Info} {d : Bytes} (hsha : ∀ b, (w.sha b).length = 20) (hd : Describes w.sha info d) (hfit : Fits info d) :
    ∀ i, i < pieceCount d.length info.pieceLength → ∃ net f pc, downloadPiece w.sha w.build (.connected net) f [] info i = .ok pc ∧
      pc = piece d info.pieceLength i := by
  intro i hi
  obtain ⟨net, f, h⟩ := honest_serves hsha w.build hd hi hfit.length
    (Nat.lt_of_le_of_lt (Nat.mul_le_mul_left _ (by omega)) hfit.last) (Nat.lt_of_lt_of_le hi hfit.pieces) []
  exact ⟨net, f, _, h, rfl⟩

/-- C42: a download is never stuck. Whatever happened before, as long as not all workers died there is a way to go on after which nothing is in
flight, no further worker died, and every piece that was not lost has been handed to the writer, once. (Peers that have the pieces must turn
up; they can.) Missing: lost pieces, five dead workers. -/
theorem C42_completable_partial {w : World} {s : Sys} {info : Info} {d : Bytes} (hsha : ∀ b, (w.sha b).length = 20) (hr : Among w s)
    (hi : s.torrent.info = some info) (hd : Describes w.sha info d) (hfit : Fits info d) (hs : s.torrent.initiated = true) (hl : s.lost.length < 5) :
    ∃ t, Steps w s t ∧ flight t = [] ∧ t.lost = s.lost ∧ (handed t ++ s.lost).Perm (List.range (count info)) := by
  obtain ⟨n, h⟩ := among_known hr hi
  have hn := known_count h hd hfit.length
  obtain ⟨t, h1, h2, h3, h4, hrep, -, hgood⟩ := work_steps (w := w) (info := info) (n := n) (fun i pc => pc = piece d info.pieceLength i) (by rw [hn]; exact serve_of hsha hd hfit) _ s rfl h hs hl
  have ht := known_steps h h1
  refine ⟨t, h1, h2, h3, ?_⟩
  have hwait : waiting t = [] := by
    by_cases hw : waiting t = []
    · exact hw
    · have := ht.full h4 hw
      rw [h2, h3] at this
      simp at this
      omega
  have := ht.perm
  rw [hwait, h2, h3] at this
  have hc : contentLength info = d.length := by rw [contentLength_listed, hd.total]
  rw [← pieceTotal_count (.inr (by rw [hc]; exact hfit.length)) h.total]
  simpa using this

/-- Taking everything in the writer's mailbox. -/
theorem drain {w : World} {info : Info} {d infoHash : Bytes} {fs : FS} (hlen : 2 < infoHash.length) (hd : Describes w.sha info d)
    (hlay : Placeable w.cwd fs (listedFiles info) d info.pieceLength) (hdl : ∀ f ∈ listedFiles info, f.path.head? ≠ some b!"downloads") :
    ∀ (k : Nat) (s : Sys), s.ready.length = k → Steps w (Sys.init infoHash fs) s → s.torrent.info = some info →
    ∃ t, Steps w s t ∧ t.torrent = s.torrent ∧ flight t = flight s ∧ t.lost = s.lost ∧ (Forged w info d t ∨ t.ready = []) ∧
      peersReported t = peersReported s ∧ ∀ G, AllGood G s → AllGood G t := by
  intro k
  induction k with
  | zero =>
    intro s hk _ _
    exact ⟨s, .refl s, rfl, rfl, rfl, .inr (List.length_eq_zero_iff.mp hk), rfl, fun _ hg => hg⟩
  | succ k ih =>
    intro s hk hst hi
    rcases writes_reachable hlen hd hlay hdl hst with ⟨h, -⟩ | ⟨info', n, hk', hw⟩
    · rw [h.info] at hi; cases hi
    · have : info' = info := by rw [hk'.hasInfo] at hi; exact Option.some.inj hi
      rcases hw this with hfg | hw
      · exact ⟨s, .refl s, rfl, rfl, rfl, .inl hfg, rfl, fun _ hg => hg⟩
      · cases hr : s.ready with
        | nil => rw [hr] at hk; cases hk
        | cons r ready =>
          have st := Step.write (w := w) s r ready hw.up hr _ _ rfl
          generalize hs' : ({ s with ready, written := s.written ++ [r], fs := _, writerUp := _ } : Sys) = s' at st
          have h1 : s'.torrent = s.torrent := by rw [← hs']
          have h2 : flight s' = flight s := by rw [← hs']; rfl
          have h3 : s'.lost = s.lost := by rw [← hs']
          have h4 : s'.ready = ready := by rw [← hs']
          have h6 : peersReported s' = peersReported s := by rw [← hs']; rfl
          have h5 : ∀ G, AllGood G s → AllGood G s' := by
            intro G hg
            rw [← hs']
            refine allGood_same hg (fun _ _ _ hx => hx) ?_
            intro x hx
            rw [hr]
            simpa using hx
          obtain ⟨t, e1, e2, e3, e4, e5, e7, e6⟩ := ih s' (by rw [h4]; rw [hr] at hk; simpa using hk) (.tail hst st) (by rw [h1]; exact hi)
          exact ⟨t, Steps.trans (Steps.single st) e1, by rw [e2, h1], by rw [e3, h2], by rw [e4, h3], e5, by rw [e7, h6], fun G hg => e6 G (h5 G hg)⟩

theorem can_finish_over {w : World} {info : Info} {d infoHash : Bytes} {fs : FS} {s : Sys} (hsha : ∀ b, (w.sha b).length = 20)
    (hlen : 2 < infoHash.length) (hd : Describes w.sha info d) (hfit : Fits info d)
    (hlay : Placeable w.cwd fs (listedFiles info) d info.pieceLength) (hdl : ∀ f ∈ listedFiles info, f.path.head? ≠ some b!"downloads")
    (hst : Steps w (Sys.init infoHash fs) s) (hi : s.torrent.info = some info) (hs : s.torrent.initiated = true) (hl : s.lost = []) :
    ∃ t, Steps w s t ∧ t.torrent.info = some info ∧ t.torrent.initiated = true ∧ peersReported t = peersReported s ∧
      (AllGood (fun i pc => pc = piece d info.pieceLength i) s → AllGood (fun i pc => pc = piece d info.pieceLength i) t) ∧
      ((∃ r ∈ t.written, Collision w.sha r.piece (piece d info.pieceLength r.idx)) ∨
      (flight t = [] ∧ t.lost = [] ∧ t.ready = [] ∧ FilesOver fs t.fs w.cwd (listedFiles info) d)) := by
  obtain ⟨n, h⟩ := among_known (among_of hst) hi
  have hn := known_count h hd hfit.length
  obtain ⟨t, h1, h2, h3, h4, hrep, -, hgood⟩ := work_steps (w := w) (info := info) (n := n) (fun i pc => pc = piece d info.pieceLength i) (by rw [hn]; exact serve_of hsha hd hfit) _ s rfl h hs (by rw [hl]; decide)
  have ht := known_steps h h1
  obtain ⟨u, e1, e2, e3, e4, e5, e7, e6⟩ := drain hlen hd hlay hdl _ t rfl (hst.trans h1) ht.hasInfo
  refine ⟨u, h1.trans e1, by rw [e2]; exact ht.hasInfo, by rw [e2]; exact h4, by rw [e7, hrep], fun hg => e6 _ (hgood hg), ?_⟩
  rcases e5 with ⟨r, hr, -, hc⟩ | e5
  · exact .inl ⟨r, hr, hc⟩
  · have hlost : u.lost = [] := by rw [e4, h3, hl]
    rcases at_rest_over hlen hd hlay hdl ((hst.trans h1).trans e1) (by rw [e2]; exact ht.hasInfo) (by rw [e2]; exact h4) (by rw [e3]; exact h2)
      hlost e5 with hc | hc
    · exact .inl hc
    · exact .inr ⟨by rw [e3]; exact h2, hlost, e5, hc⟩

theorem can_finish {w : World} {info : Info} {d infoHash : Bytes} {fs : FS} {s : Sys} (hsha : ∀ b, (w.sha b).length = 20)
    (hlen : 2 < infoHash.length) (hd : Describes w.sha info d) (hfit : Fits info d)
    (hlay : Layout w.cwd fs (listedFiles info) d info.pieceLength) (hdl : ∀ f ∈ listedFiles info, f.path.head? ≠ some b!"downloads")
    (hst : Steps w (Sys.init infoHash fs) s) (hi : s.torrent.info = some info) (hs : s.torrent.initiated = true) (hl : s.lost = []) :
    ∃ t, Steps w s t ∧ t.torrent.info = some info ∧ t.torrent.initiated = true ∧ peersReported t = peersReported s ∧
      (AllGood (fun i pc => pc = piece d info.pieceLength i) s → AllGood (fun i pc => pc = piece d info.pieceLength i) t) ∧
      ((∃ r ∈ t.written, Collision w.sha r.piece (piece d info.pieceLength r.idx)) ∨
      (flight t = [] ∧ t.lost = [] ∧ t.ready = [] ∧ FilesRight t.fs w.cwd (listedFiles info) d)) := by
  obtain ⟨t, h1, h2, h3, h4, h5, h6⟩ := can_finish_over hsha hlen hd hfit hlay.placeable hdl hst hi hs hl
  refine ⟨t, h1, h2, h3, h4, h5, ?_⟩
  rcases h6 with h6 | ⟨h6, h7, h8, h9⟩
  · exact .inl h6
  · exact .inr ⟨h6, h7, h8, over_layout hlay h9⟩

/-- C66: from every state of a started torrent in which no worker died, whatever peers did before, the download can be completed; then
nothing is left to do and every non-empty file is the published one, or a collision has been exhibited. Missing: as for
`C66_always_partial`, and dead workers. -/
theorem C66_can_finish_partial {w : World} {info : Info} {d infoHash : Bytes} {fs : FS} {s : Sys} (hsha : ∀ b, (w.sha b).length = 20)
    (hlen : 2 < infoHash.length) (hd : Describes w.sha info d) (hfit : Fits info d)
    (hlay : Layout w.cwd fs (listedFiles info) d info.pieceLength) (hdl : ∀ f ∈ listedFiles info, f.path.head? ≠ some b!"downloads")
    (hst : Steps w (Sys.init infoHash fs) s) (hi : s.torrent.info = some info) (hs : s.torrent.initiated = true) (hl : s.lost = []) :
    ∃ t, Steps w s t ∧ ((∃ r ∈ t.written, Collision w.sha r.piece (piece d info.pieceLength r.idx)) ∨
      (flight t = [] ∧ t.lost = [] ∧ t.ready = [] ∧ FilesRight t.fs w.cwd (listedFiles info) d)) := by
  obtain ⟨t, h1, -, -, -, -, h2⟩ := can_finish hsha (by omega) hd hfit hlay hdl hst hi hs hl
  exact ⟨t, h1, h2⟩

theorem pieceTotal_of {ε : Type} {m : Build} {sha : Bytes → Bytes} {info : Info} {d : Bytes} (hd : Describes sha info d) (h64 : d.length < 2 ^ 64)
    (hpos : 0 < d.length) : (pieceTotal m info : Res ε Nat) = .ok (pieceCount d.length info.pieceLength) := by
  have := hd.pieceLength
  rw [pieceTotal, totalLength_listed hd.total h64 hpos]
  simp only [Res.bind_ok, stepByLen]
  rw [if_neg (by omega), pieceCount, Nat.add_sub_assoc (by omega)]

/-- From a disk with the metadata in the cache. -/
theorem finish_cached_over {w : World} {info : Info} {d infoHash : Bytes} {fs : FS} (hsha : ∀ b, (w.sha b).length = 20)
    (hlen : 2 < infoHash.length) (hd : Describes w.sha info d) (hfit : Fits info d) (hpos : 0 < d.length) (ht : Typed info)
    (hlay : Placeable w.cwd fs (listedFiles info) d info.pieceLength) (hdl : ∀ f ∈ listedFiles info, f.path.head? ≠ some b!"downloads")
    (hc : Cached fs w.cwd infoHash info) :
    ∃ s t, Steps w (Sys.init infoHash fs) s ∧ s.fs = fs ∧ s.torrent.info = some info ∧ Steps w s t ∧ t.writerUp = true ∧ t.torrent.info = some info ∧ flight t = [] ∧
      t.lost = [] ∧ t.ready = [] ∧ (∀ i, i < pieceCount d.length info.pieceLength → i ∈ handed t) ∧ FilesOver fs t.fs w.cwd (listedFiles info) d := by
  have hn : (pieceTotal w.build info : Res Unit Nat) = .ok (pieceCount d.length info.pieceLength) := pieceTotal_of hd hfit.length hpos
  have hcount : 0 < pieceCount d.length info.pieceLength := Nat.div_pos (by have := hd.pieceLength; omega) hd.pieceLength
  have hst := run_started_on hlen ht hc hn hcount
  obtain ⟨t, h1, h2, hini, -, h3, h4⟩ := can_finish_over hsha hlen hd hfit hlay hdl hst rfl rfl rfl
  have hg := h3 ⟨fun e p i hx => (by cases hx), fun r hr => (by cases hr)⟩
  have hup : t.writerUp = true := by
    rcases C66_always_partial hlen hd hlay hdl (hst.trans h1) h2 with ⟨r, hr, hne, -⟩ | ⟨h, -⟩
    · exact absurd (hg.2 r (List.mem_append_left _ hr)) hne
    · exact h
  refine ⟨_, t, hst, rfl, rfl, h1, hup, h2, ?_⟩
  rcases h4 with ⟨r, hr, hne, -⟩ | ⟨h5, h6, h7, h8⟩
  · exact absurd (hg.2 r (List.mem_append_left _ hr)) hne
  · refine ⟨h5, h6, h7, ?_, h8⟩
    intro i hi
    have hcl : contentLength info = d.length := by rw [contentLength_listed, hd.total]
    have := C43_all_handed_partial (among_of (hst.trans h1)) h2 (.inr (by rw [hcl]; exact hfit.length)) hini h6 h5
    refine this.mem_iff.mpr (List.mem_range.mpr ?_)
    rw [count, hcl]
    exact hi

theorem finish_cached {w : World} {info : Info} {d infoHash : Bytes} {fs : FS} (hsha : ∀ b, (w.sha b).length = 20)
    (hlen : 2 < infoHash.length) (hd : Describes w.sha info d) (hfit : Fits info d) (hpos : 0 < d.length) (ht : Typed info)
    (hlay : Layout w.cwd fs (listedFiles info) d info.pieceLength) (hdl : ∀ f ∈ listedFiles info, f.path.head? ≠ some b!"downloads")
    (hc : Cached fs w.cwd infoHash info) :
    ∃ s t, Steps w (Sys.init infoHash fs) s ∧ s.fs = fs ∧ s.torrent.info = some info ∧ Steps w s t ∧ t.writerUp = true ∧ t.torrent.info = some info ∧ flight t = [] ∧
      t.lost = [] ∧ t.ready = [] ∧ (∀ i, i < pieceCount d.length info.pieceLength → i ∈ handed t) ∧ FilesRight t.fs w.cwd (listedFiles info) d := by
  obtain ⟨s, t, s1, s2, s3, s4, s5, s6, s7, s8, s9, s10, s11⟩ := finish_cached_over hsha hlen hd hfit hpos ht hlay.placeable hdl hc
  exact ⟨s, t, s1, s2, s3, s4, s5, s6, s7, s8, s9, s10, over_layout hlay s11⟩

/-! ### The hypotheses can be met -/

/-- A torrent of three bytes in two pieces. -/
def threeBytes (sha : Bytes → Bytes) : Info := ⟨none, some 3, b!"a", 2, sha [1, 2] ++ sha [3]⟩

theorem threeBytes_describes {sha : Bytes → Bytes} (hsha : ∀ b, (sha b).length = 20) : Describes sha (threeBytes sha) [1, 2, 3] where
  total := rfl
  pieceLength := by show 0 < 2; decide
  hashes := by
    intro k hk
    have : k = 0 ∨ k = 1 := by
      have : k < pieceCount 3 2 := hk
      rw [show pieceCount 3 2 = 2 by decide] at this
      omega
    rcases this with rfl | rfl
    · have := hsha [1, 2]
      show (((sha [1, 2] ++ sha [3]).drop 0).take 20) = sha [1, 2]
      rw [List.drop_zero, List.take_append_of_le_length (by omega), List.take_of_length_le (by omega)]
    · have := hsha [3]
      show (((sha [1, 2] ++ sha [3]).drop 20).take 20) = sha [3]
      rw [List.drop_append_of_le_length (by rw [hsha]; omega), List.drop_of_length_le (by rw [hsha]; omega), List.nil_append,
        List.take_of_length_le (by omega)]

theorem threeBytes_layout (w : World) (hash : Bytes) : Layout w.cwd (cachedFs w.cwd hash (threeBytes w.sha)) (listedFiles (threeBytes w.sha)) [1, 2, 3] 2 where
  plain := by
    intro f hf
    rw [List.mem_singleton.mp hf]
    refine ⟨by simp, ?_⟩
    intro c hc
    rw [List.mem_singleton.mp hc]
    show b!"a" ≠ [] ∧ b!"a" ≠ b!"." ∧ b!"a" ≠ b!".." ∧ c!"/" ∉ b!"a" ∧ 0 ∉ b!"a"
    decide
  separate := by
    intro i j f g hf hg _
    have h1 := (List.getElem?_eq_some_iff.mp hf).1
    have h2 := (List.getElem?_eq_some_iff.mp hg).1
    simp only [listedFiles, threeBytes, List.length_singleton] at h1 h2
    omega
  room := by
    intro f hf
    rw [List.mem_singleton.mp hf]
    have hnone : cachedFs w.cwd hash (threeBytes w.sha) (w.cwd ++ [b!"a"]) = none := by
      simp [cachedFs, cacheLoc]
    refine ⟨?_, ?_, ?_⟩
    · intro q c hq hne hnil
      have hq : q <+: [b!"a"] := hq
      rw [List.prefix_cons_iff] at hq
      rcases hq with rfl | ⟨q', rfl, hq'⟩
      · exact absurd rfl hnil
      · rw [List.prefix_nil] at hq'
        subst hq'
        exact absurd rfl hne
    · show cachedFs _ _ _ (w.cwd ++ [b!"a"]) ≠ _
      rw [hnone]; simp
    · intro c hc
      have hc : cachedFs _ _ _ (w.cwd ++ [b!"a"]) = _ := hc
      rw [hnone] at hc; cases hc
  length := rfl
  small := by decide
  pieceLength := by decide

theorem threeBytes_typed (sha : Bytes → Bytes) : Typed (threeBytes sha) :=
  ⟨by show validUtf8 b!"a" = true; decide +kernel, by show 2 < 2 ^ 64; decide, by intro n h; cases h; decide, by intro fs h; cases h⟩

theorem threeBytes_total {ε : Type} (m : Build) (sha : Bytes → Bytes) : (pieceTotal m (threeBytes sha) : Res ε Nat) = .ok 2 := by
  cases m <;> simp [pieceTotal, Info.getTotalLength, threeBytes, stepByLen]

/-- Non-vacuity of `C42_completable_partial`, `C66_can_finish_partial` and the other C66 theorems: in every world (with 20-byte hashes) there is a
started torrent, and so a finished one: unless there is a collision the file is on disk. -/
example (w : World) (hsha : ∀ b, (w.sha b).length = 20) : ∃ s, Reachable w s ∧
    ((∃ r ∈ s.written, Collision w.sha r.piece (piece [1, 2, 3] 2 r.idx)) ∨ readFile s.fs (w.cwd ++ [b!"a"]) = some [1, 2, 3]) := by
  have hst := run_started (w := w) (infoHash := List.replicate 20 7) (info := threeBytes w.sha) (n := 2) (by decide) (threeBytes_typed _) (threeBytes_total _ _) (by decide)
  obtain ⟨t, h1, h2⟩ := C66_can_finish_partial hsha (by decide) (threeBytes_describes hsha) ⟨by decide, by show pieceCount 3 2 ≤ 2 ^ 32; decide, by show 2 * pieceCount 3 2 < 2 ^ 64; decide⟩
    (threeBytes_layout w _) (by intro f hf; rw [List.mem_singleton.mp hf]; show some b!"a" ≠ some b!"downloads"; decide) hst rfl rfl rfl
  refine ⟨t, ⟨_, _, hst.trans h1⟩, ?_⟩
  rcases h2 with h2 | ⟨-, -, -, h2⟩
  · exact .inl h2
  · exact .inr (h2 0 _ rfl (by show 0 < 3; decide))

/-- A disk with the metadata of the torrent of three bytes in the cache and a file of four bytes in the place of its file. -/
def longerFs (cwd : Loc) (infoHash : Bytes) (info : Info) : FS := (cachedFs cwd infoHash info).set (cwd ++ [b!"a"]) (.file [9, 9, 9, 7])

theorem longerFs_placeable (w : World) (hash : Bytes) :
    Placeable w.cwd (longerFs w.cwd hash (threeBytes w.sha)) (listedFiles (threeBytes w.sha)) [1, 2, 3] 2 where
  plain := (threeBytes_layout w hash).plain
  separate := (threeBytes_layout w hash).separate
  clear := by
    intro f hf
    obtain ⟨r1, -, -⟩ := (threeBytes_layout w hash).room f hf
    rw [List.mem_singleton.mp hf] at r1 ⊢
    have hat : longerFs w.cwd hash (threeBytes w.sha) (w.cwd ++ [b!"a"]) = some (.file [9, 9, 9, 7]) := if_pos rfl
    refine ⟨?_, ?_⟩
    · intro q c hq hne hnil
      have : longerFs w.cwd hash (threeBytes w.sha) (w.cwd ++ q) = cachedFs w.cwd hash (threeBytes w.sha) (w.cwd ++ q) := by
        rw [longerFs, FS.set, if_neg]
        intro e
        exact hne (List.append_cancel_left e)
      rw [this]
      exact r1 q c hq hne hnil
    · show longerFs _ _ _ (w.cwd ++ [b!"a"]) ≠ _
      rw [hat]; simp
  length := rfl
  small := by decide
  pieceLength := by decide

theorem longerFs_cached (w : World) (hash : Bytes) : Cached (longerFs w.cwd hash (threeBytes w.sha)) w.cwd hash (threeBytes w.sha) := by
  have h := cachedFs_cached w.cwd hash (threeBytes w.sha)
  refine ⟨?_, ?_⟩
  · rw [longerFs, FS.set, if_neg (by simp)]
    exact h.1
  · have : readFile (longerFs w.cwd hash (threeBytes w.sha)) (cacheLoc w.cwd hash) = readFile (cachedFs w.cwd hash (threeBytes w.sha)) (cacheLoc w.cwd hash) := by
      rw [readFile, readFile, longerFs, FS.set, if_neg (by simp [cacheLoc])]
    rw [this]
    exact h.2

/-- The full C66 is false, in every world (with 20-byte hashes): there is a disk, with a longer file in the place of the torrent's, and a
complete run, in which every piece was handed over and written, after which the file is not the published one: it still has the tail of the
longer file. (Also the non-vacuity of `C66_over_partial` and `C66_exact_partial`.) -/
theorem C66_refuted_longer (w : World) (hsha : ∀ b, (w.sha b).length = 20) : ∃ fs t,
    Placeable w.cwd fs (listedFiles (threeBytes w.sha)) [1, 2, 3] 2 ∧ Steps w (Sys.init (List.replicate 20 7) fs) t ∧
    t.torrent.info = some (threeBytes w.sha) ∧ t.writerUp = true ∧ flight t = [] ∧ t.lost = [] ∧ t.ready = [] ∧
    (∀ i, i < 2 → i ∈ handed t) ∧ readFile t.fs (w.cwd ++ [b!"a"]) = some [1, 2, 3, 7] ∧
    ¬ FilesRight t.fs w.cwd (listedFiles (threeBytes w.sha)) [1, 2, 3] := by
  obtain ⟨s, t, h1, -, -, h2, h3, h4, h5, h6, h7, h8, h9⟩ := finish_cached_over (w := w) (infoHash := List.replicate 20 7) hsha (by decide) (threeBytes_describes hsha)
    ⟨by decide, by show pieceCount 3 2 ≤ 2 ^ 32; decide, by show 2 * pieceCount 3 2 < 2 ^ 64; decide⟩ (by decide) (threeBytes_typed _)
    (longerFs_placeable w _) (by intro f hf; rw [List.mem_singleton.mp hf]; show some b!"a" ≠ some b!"downloads"; decide) (longerFs_cached w _)
  have hf := h9 0 ⟨[b!"a"], 3⟩ rfl (by decide)
  have hat : readFile (longerFs w.cwd (List.replicate 20 7) (threeBytes w.sha)) (w.cwd ++ [b!"a"]) = some [9, 9, 9, 7] := by
    rw [readFile, longerFs, FS.set, if_pos rfl]
  rw [hat] at hf
  have hf : readFile t.fs (w.cwd ++ [b!"a"]) = some [1, 2, 3, 7] := hf
  refine ⟨_, t, longerFs_placeable w _, h1.trans h2, h4, h3, h5, h6, h7, fun i hi => h8 i (show i < pieceCount 3 2 from hi), hf, fun hr => ?_⟩
  have : readFile t.fs (w.cwd ++ [b!"a"]) = some [1, 2, 3] := hr 0 ⟨[b!"a"], 3⟩ rfl (by decide)
  rw [hf] at this
  exact absurd this (by decide)

/-- Metadata that lists one path twice. -/
def twice (sha : Bytes → Bytes) : Info := ⟨some [⟨[b!"a"], 1⟩, ⟨[b!"a"], 1⟩], none, b!"t", 2, sha [1, 2]⟩

/-- The full C66 is false also for metadata that lists a path twice: no disk at all has the files right. -/
theorem C66_refuted_same_path (sha : Bytes → Bytes) (hsha : ∀ b, (sha b).length = 20) (cwd : Loc) :
    Describes sha (twice sha) [1, 2] ∧ ∀ fs, ¬ FilesRight fs cwd (listedFiles (twice sha)) [1, 2] := by
  refine ⟨⟨rfl, by show 0 < 2; decide, ?_⟩, fun fs h => ?_⟩
  · intro k hk
    have : k < pieceCount 2 2 := hk
    rw [show pieceCount 2 2 = 1 by decide] at this
    have : k = 0 := by omega
    subst this
    show ((sha [1, 2]).drop 0).take 20 = sha [1, 2]
    rw [List.drop_zero, List.take_of_length_le (by rw [hsha]; omega)]
  · have h0 : readFile fs (cwd ++ [b!"a"]) = some [1] := h 0 ⟨[b!"a"], 1⟩ rfl (by decide)
    have h1 : readFile fs (cwd ++ [b!"a"]) = some [2] := h 1 ⟨[b!"a"], 1⟩ rfl (by decide)
    rw [h1] at h0
    exact absurd h0 (by decide)

end RustBit
