/-
C74: a download ends.
-/
import Verif.Spec.Ends
import Verif.Props.Finish

namespace RustBit
open Spec

/-- Steps left for a message. -/
def mailSteps : List Mail → Nat
  | [] => 0
  | .found _ :: l => 1 + mailSteps l
  | .success _ _ _ :: l => 2 + mailSteps l
  | .failed _ _ :: l => 5 + mailSteps l

theorem mailSteps_append (a b : List Mail) : mailSteps (a ++ b) = mailSteps a + mailSteps b := by
  induction a with
  | nil => simp [mailSteps]
  | cons m a ih => cases m <;> simp only [List.cons_append, mailSteps, ih] <;> omega

/-- Steps left without further failures: a piece has to be taken, downloaded, handled and written. -/
def stepsLeft (s : Sys) : Nat :=
  4 * (waiting s).length + 4 * s.queue.length + 3 * s.busy.length + mailSteps s.mail + s.ready.length

theorem counts_move (s : Sys) (m : Mail) (rest : List Mail) (hm : s.mail = m :: rest) :
    s.handled ++ s.mail = s.handled ++ [m] ++ rest := by
  rw [hm, List.append_assoc, List.singleton_append]

theorem left_step {w : World} {info : Info} {n : Nat} {s t : Sys} (h : Known w info n s) (hst : Step w s t) :
    1 + stepsLeft t + 2 * t.lost.length + 2 * peersReported s + 3 * downloadsFailed s =
      stepsLeft s + 2 * s.lost.length + 2 * peersReported t + 3 * downloadsFailed t := by
  cases hst with
  | announce bytes p hp =>
    simp only [stepsLeft, waiting, peersReported, downloadsFailed, mailSteps_append, mailSteps, ← List.append_assoc]
    simp only [List.countP_append, List.countP_cons, List.countP_nil]
    simp
    omega
  | take r queue hq hb =>
    simp only [stepsLeft, waiting, peersReported, downloadsFailed, hq, List.length_append, List.length_cons, List.length_nil]
    omega
  | finishOk pre post r hb tcp f peerId piece hd =>
    simp only [stepsLeft, waiting, peersReported, downloadsFailed, hb, mailSteps_append, mailSteps, List.length_append, List.length_cons, ← List.append_assoc]
    simp only [List.countP_append, List.countP_cons, List.countP_nil]
    simp
    omega
  | finishErr pre post r hb tcp f peerId e hd =>
    simp only [stepsLeft, waiting, peersReported, downloadsFailed, hb, mailSteps_append, mailSteps, List.length_append, List.length_cons, ← List.append_assoc]
    simp only [List.countP_append, List.countP_cons, List.countP_nil]
    simp
    omega
  | finishPanic pre post r hb tcp f peerId hd =>
    simp only [stepsLeft, waiting, peersReported, downloadsFailed, hb, List.length_append, List.length_cons, List.length_nil]
    omega
  | success e piece i rest hd hm =>
    obtain ⟨files, hfiles⟩ := getFiles_of_total h.total
    have := (requestNext_total { s.torrent with peers := TPeer.updateSuccess s.torrent.peers e } info e (waiting s)).2
    have hc := counts_move s _ rest hm
    simp only [stepsLeft, peersReported, downloadsFailed, Sys.after, hc]
    simp only [Torrent.onSuccess, h.hasInfo, hfiles, h.pool, hm, mailSteps, List.length_append, List.length_singleton]
    simp only [h.hasInfo, h.pool] at this
    simp only [waiting] at this ⊢
    omega
  | failed e i rest hd hm shuffled hs =>
    have hne : shuffled ≠ [] := by
      intro h0
      have := hs.length_eq
      rw [h0, (peers_length (e := e)).1] at this
      exact h.nonempty (List.length_eq_zero_iff.mp this.symm)
    obtain ⟨p, -, e1, -, -⟩ := findSuitablePeer_ok (ε := Unit) hne
    have := (requestNext_total { s.torrent with pool := some (PiecePool.insert (waiting s) i), peers := TPeer.updateFailed s.torrent.peers e } info
      p.endpoint (PiecePool.insert (waiting s) i)).2
    have hc := counts_move s _ rest hm
    simp only [stepsLeft, peersReported, downloadsFailed, Sys.after, hc]
    simp only [Torrent.onFailed, h.pool, e1, h.hasInfo, hm, mailSteps, List.length_append]
    simp only [h.hasInfo] at this
    simp only [PiecePool.insert, List.length_append, List.length_singleton] at this
    simp only [waiting, PiecePool.insert] at this ⊢
    simp only [List.length_nil]
    omega
  | collect p rest hd hm hi => rw [h.hasInfo] at hi; cases hi
  | found p rest hd hm info' hi shuffles hn hs =>
    rw [h.hasInfo] at hi
    cases hi
    have hmail : MailGood w info (.found p) := h.mail _ (by rw [hm]; exact List.mem_cons_self ..)
    have hpeers : ∀ q ∈ (s.torrent.addPeer p).peers, Parses q.endpoint := by
      intro q hq
      rcases List.mem_append.mp hq with hq | hq
      · exact h.peers q hq
      · rw [List.mem_singleton.mp hq]; exact hmail
    have hne : (s.torrent.addPeer p).peers ≠ [] := by simp [Torrent.addPeer]
    obtain ⟨reqs, e1, e2, e3⟩ := startRequests_spec info (s.torrent.addPeer p).peers hne hpeers shuffles (waiting s) hs
    have hc := counts_move s _ rest hm
    have hlen := congrArg List.length e2
    rw [List.length_map, List.length_take] at hlen
    have hpool : (s.torrent.addPeer p).pool = some (waiting s) := h.pool
    rw [Torrent.onReady]
    split
    · rw [hpool]
      simp only [e1]
      simp only [stepsLeft, peersReported, downloadsFailed, Sys.after, hc]
      simp only [hm, mailSteps, List.length_append, List.length_nil, waiting, Option.getD_some, List.length_drop]
      simp only [waiting] at hlen
      omega
    · simp only [stepsLeft, peersReported, downloadsFailed, Sys.after, hc]
      simp only [hm, mailSteps, List.length_append, List.length_nil, waiting, Torrent.addPeer]
      omega
  | write r ready hu hr res fs hw =>
    simp only [stepsLeft, waiting, peersReported, downloadsFailed, hr, List.length_cons]
    omega

/-- Counting steps before the metadata is known. -/
structure FreshCount (k : Nat) (s : Sys) : Prop where
  fresh : Fresh s
  eq : k + s.mail.length = 2 * peersReported s
  none : downloadsFailed s = 0

theorem mailSteps_found {l : List Mail} (h : ∀ m ∈ l, ∃ p, m = .found p) : mailSteps l = l.length := by
  induction l with
  | nil => rfl
  | cons m l ih =>
    obtain ⟨p, rfl⟩ := h m List.mem_cons_self
    rw [mailSteps, ih (fun m hm => h m (List.mem_cons_of_mem _ hm)), List.length_cons]
    omega

theorem trace_steps {w : World} {s t : Sys} {k : Nat} (h : Trace w s k t) : Steps w s t := by
  induction h with
  | refl => exact .refl _
  | tail _ hs ih => exact .tail ih hs

theorem count_trace {w : World} {infoHash : Bytes} {fs : FS} {k : Nat} {s : Sys} (h : Trace w (Sys.init infoHash fs) k s) :
    FreshCount k s ∨ ∃ info n, Known w info n s ∧
      k + stepsLeft s + 2 * s.lost.length = 2 * peersReported s + 4 * n + 3 * downloadsFailed s := by
  generalize hI : Sys.init infoHash fs = I at h
  induction h with
  | refl =>
    subst hI
    exact .inl ⟨fresh_init _ _, rfl, rfl⟩
  | tail hp hst ih =>
    rename_i s t k
    rcases ih with ih | ⟨info, n, ih, he⟩
    · have hk := fresh_step ih.fresh hst
      have hf := ih.fresh
      have h1 := ih.eq
      have h2 := ih.none
      cases hst with
      | announce bytes p hp =>
        rcases hk with hk | ⟨info, n, hk⟩
        · refine .inl ⟨hk, ?_, ?_⟩
          · have : peersReported { s with mail := s.mail ++ [.found p] } = peersReported s + 1 := by
              simp only [peersReported, ← List.append_assoc, List.countP_append, List.countP_cons, List.countP_nil]
              simp
            rw [this, List.length_append, List.length_singleton]
            omega
          · have : downloadsFailed { s with mail := s.mail ++ [.found p] } = downloadsFailed s := by
              simp only [downloadsFailed, ← List.append_assoc, List.countP_append, List.countP_cons, List.countP_nil]
              simp
            rw [this, h2]
        · have := hk.hasInfo
          simp only [hf.info] at this
          cases this
      | take r queue hq hb => rw [hf.queue] at hq; cases hq
      | finishOk pre post r hb => rw [hf.busy] at hb; simp at hb
      | finishErr pre post r hb => rw [hf.busy] at hb; simp at hb
      | finishPanic pre post r hb => rw [hf.busy] at hb; simp at hb
      | success endpoint piece idx rest hd hm =>
        obtain ⟨p, e, -⟩ := hf.mail _ (by rw [hm]; exact List.mem_cons_self ..)
        cases e
      | failed endpoint idx rest hd hm =>
        obtain ⟨p, e, -⟩ := hf.mail _ (by rw [hm]; exact List.mem_cons_self ..)
        cases e
      | found p rest hd hm info hi => rw [hf.info] at hi; cases hi
      | write r ready hu hr => rw [hf.ready] at hr; cases hr
      | collect p rest hd hm hi tcp f peerId room collected fs' hh hc =>
        have hcm := counts_move s _ rest hm
        have hfound : ∀ m ∈ rest, ∃ p, m = Mail.found p := by
          intro m hm'
          obtain ⟨q, e, -⟩ := hf.mail m (by rw [hm]; exact List.mem_cons_of_mem _ hm')
          exact ⟨q, e⟩
        have hms := mailSteps_found hfound
        rw [hm, List.length_cons] at h1
        rcases hk with hk | ⟨info, n, hk⟩
        · refine .inl ⟨hk, ?_, ?_⟩
          · simp only [peersReported, Sys.after]
            rw [← hcm]
            simp only [peersReported] at h1
            omega
          · simp only [downloadsFailed, Sys.after]
            rw [← hcm]
            exact h2
        · refine .inr ⟨info, n, hk, ?_⟩
          have hi0 := hk.idle (by
            have : (Torrent.onCollected w.build (s.torrent.addPeer p) collected).torrent.initiated = s.torrent.initiated := (onCollected_peers _ _ _).2
            simp only [Sys.after]
            rw [this]
            exact hf.initiated)
          obtain ⟨hfl, hha, hlo, hwa⟩ := hi0
          have hq : (s.after (.found p) rest ((s.torrent.addPeer p).onCollected w.build collected)).queue = [] ∧
              (s.after (.found p) rest ((s.torrent.addPeer p).onCollected w.build collected)).busy = [] := by
            simp only [flight, List.append_eq_nil_iff, List.map_eq_nil_iff] at hfl
            exact ⟨hfl.1.1, hfl.1.2⟩
          have hr : (s.after (.found p) rest ((s.torrent.addPeer p).onCollected w.build collected)).ready = [] := by
            simp only [handed, List.map_eq_nil_iff, List.append_eq_nil_iff] at hha
            exact hha.2
          have e1 : peersReported ({ s.after (.found p) rest ((s.torrent.addPeer p).onCollected w.build collected) with fs := fs' } : Sys) =
              peersReported s := by
            simp only [peersReported, Sys.after]
            rw [← hcm]
          have e2 : downloadsFailed ({ s.after (.found p) rest ((s.torrent.addPeer p).onCollected w.build collected) with fs := fs' } : Sys) = 0 := by
            rw [← h2]
            simp only [downloadsFailed, Sys.after]
            rw [← hcm]
          rw [e1, e2, hlo, stepsLeft, hwa, hq.1, hq.2, hr]
          simp only [Sys.after, List.length_range, List.length_nil, hms]
          omega
    · refine .inr ⟨info, n, known_step ih hst, ?_⟩
      have := left_step ih hst
      omega

/-- C74: the number of steps a torrent with metadata has taken, of all its actors together: at most two for each peer reported, four for each piece,
three for each download that failed. When nothing is left to do it is exactly this number, less two for each worker lost. -/
theorem C74_steps {w : World} {infoHash : Bytes} {fs : FS} {k : Nat} {s : Sys} {info : Info} (h : Trace w (Sys.init infoHash fs) k s)
    (hi : s.torrent.info = some info) (hw : NoWrap w info) :
    k + 2 * s.lost.length ≤ 2 * peersReported s + 4 * count info + 3 * downloadsFailed s ∧
    (waiting s = [] → s.queue = [] → s.busy = [] → s.mail = [] → s.ready = [] →
      k + 2 * s.lost.length = 2 * peersReported s + 4 * count info + 3 * downloadsFailed s) := by
  rcases count_trace h with hc | ⟨info', n, hk, he⟩
  · have := hc.fresh.info
    rw [hi] at this
    cases this
  · have := hk.hasInfo
    rw [hi] at this
    cases this
    have hn := pieceTotal_count hw hk.total
    subst hn
    refine ⟨by omega, ?_⟩
    intro h1 h2 h3 h4 h5
    have : stepsLeft s = 0 := by rw [stepsLeft, h1, h2, h3, h4, h5]; rfl
    omega

/-- C74: before the metadata is known it has taken at most two for each peer. -/
theorem C74_steps_before {w : World} {infoHash : Bytes} {fs : FS} {k : Nat} {s : Sys} (h : Trace w (Sys.init infoHash fs) k s)
    (hi : s.torrent.info = none) : k ≤ 2 * peersReported s := by
  rcases count_trace h with hc | ⟨info', n, hk, he⟩
  · have := hc.eq
    omega
  · rw [hk.hasInfo] at hi
    cases hi

theorem run_trace {w : World} {run : Nat → Sys} (hr : ∀ i, Step w (run i) (run (i + 1))) : ∀ i, Trace w (run 0) i (run i) := by
  intro i
  induction i with
  | zero => exact .refl _
  | succ i ih => exact .tail ih (hr i)

theorem run_steps {w : World} {run : Nat → Sys} (hr : ∀ i, Step w (run i) (run (i + 1))) (i : Nat) : ∀ j, Steps w (run i) (run (i + j)) := by
  intro j
  induction j with
  | zero => exact .refl _
  | succ j ih => exact .tail ih (hr (i + j))

/-- C74: a torrent cannot go on for ever unless trackers report peers, or downloads fail, without end. -/
theorem C74_no_endless_run {w : World} {infoHash : Bytes} {fs : FS} {run : Nat → Sys} (h0 : run 0 = Sys.init infoHash fs)
    (hr : ∀ i, Step w (run i) (run (i + 1))) : ∀ B, ∃ i, B < peersReported (run i) + downloadsFailed (run i) := by
  intro B
  refine Classical.byContradiction fun hno => ?_
  have hno : ∀ i, peersReported (run i) + downloadsFailed (run i) ≤ B := fun i =>
    Nat.not_lt.mp fun hlt => hno ⟨i, hlt⟩
  have htr : ∀ i, Trace w (Sys.init infoHash fs) i (run i) := fun i => h0 ▸ run_trace hr i
  rcases count_trace (htr (2 * B + 1)) with hc | ⟨info, n, hk, -⟩
  · have := hc.eq
    have := hno (2 * B + 1)
    omega
  · have hk' := known_steps hk (run_steps hr (2 * B + 1) (3 * B + 4 * n))
    rcases count_trace (htr (2 * B + 1 + (3 * B + 4 * n))) with hc | ⟨info', n', hk'', he⟩
    · have := hc.fresh.info
      rw [hk'.hasInfo] at this
      cases this
    · have hii := hk''.hasInfo
      rw [hk'.hasInfo] at hii
      cases hii
      have hnn := hk''.total
      rw [hk'.total] at hnn
      cases hnn
      have := hno (2 * B + 1 + (3 * B + 4 * n))
      omega

/-- Something that is neither a new peer nor a failure can happen as long as there is something to do. -/
theorem can_step {w : World} {info : Info} {n : Nat} {s : Sys} (h : Known w info n s) (hl : s.lost.length < 5)
    (serve : ∀ i, i < n → ∃ net f piece, downloadPiece w.sha w.build (.connected net) f [] info i = .ok piece)
    (hf : s.mail ≠ [] ∨ s.queue ≠ [] ∨ s.busy ≠ []) :
    ∃ t, Step w s t ∧ peersReported t = peersReported s ∧ downloadsFailed t = downloadsFailed s ∧ t.lost = s.lost := by
  cases hm : s.mail with
  | cons m rest =>
    have hc := counts_move s _ rest hm
    cases m with
    | found p =>
      refine ⟨_, .found s p rest h.up hm info h.hasInfo (List.replicate 5 (s.torrent.addPeer p).peers) (by simp) ?_, ?_, ?_, rfl⟩
      · intro l hl
        rw [List.eq_of_mem_replicate hl]
      · simp only [peersReported, Sys.after, hc]
      · simp only [downloadsFailed, Sys.after, hc]
    | success e piece i =>
      refine ⟨_, .success s e piece i rest h.up hm, ?_, ?_, rfl⟩
      · simp only [peersReported, Sys.after, hc]
      · simp only [downloadsFailed, Sys.after, hc]
    | failed e i =>
      refine ⟨_, .failed s e i rest h.up hm _ (.refl _), ?_, ?_, rfl⟩
      · simp only [peersReported, Sys.after, hc]
      · simp only [downloadsFailed, Sys.after, hc]
  | nil =>
    cases hb : s.busy with
    | cons r post =>
      obtain ⟨hri, a, ha⟩ := h.requests r (by rw [hb]; simp)
      have hlt : r.idx < n := by
        have : r.idx ∈ waiting s ++ flight s ++ handed s ++ s.lost := by
          simp [flight, hb]
        exact List.mem_range.mp (h.perm.mem_iff.mp this)
      obtain ⟨net, f, piece, e⟩ := serve r.idx hlt
      refine ⟨_, .finishOk s [] post r hb (fun _ => some net) f [] piece ?_, ?_, ?_, rfl⟩
      · rw [dialOf, ha, hri]
        exact e
      · simp [peersReported, hm]
      · simp [downloadsFailed, hm]
    | nil =>
      cases hq : s.queue with
      | nil =>
        rw [hm, hq, hb] at hf
        simp at hf
      | cons r q =>
        refine ⟨_, .take s r q hq ?_, rfl, rfl, rfl⟩
        have := h.workers
        rw [hb]
        simp
        omega

/-- C74: when a started torrent of which no worker died has come to a point where nothing can happen any more, except that a peer is reported or
that a download fails, then all files are complete on disk, each followed by what was beyond its
listed length before (under the conditions of C66, or a collision is exhibited). With `C74_steps` and
`C74_no_endless_run`: every download ends, with the files complete. Missing: dead workers (C42); downloads that never return (C37). -/
theorem C74_ends_over_partial {w : World} {info : Info} {d infoHash : Bytes} {fs : FS} {s : Sys} (hsha : ∀ b, (w.sha b).length = 20)
    (hlen : 2 < infoHash.length) (hd : Describes w.sha info d) (hfit : Fits info d)
    (hlay : Placeable w.cwd fs (listedFiles info) d info.pieceLength) (hdl : ∀ f ∈ listedFiles info, f.path.head? ≠ some b!"downloads")
    (hst : Steps w (Sys.init infoHash fs) s) (hi : s.torrent.info = some info) (hs : s.torrent.initiated = true) (hl : s.lost = [])
    (hend : ∀ t, Step w s t → peersReported s < peersReported t ∨ downloadsFailed s < downloadsFailed t ∨ s.lost.length < t.lost.length) :
    (∃ r ∈ s.written, Collision w.sha r.piece (piece d info.pieceLength r.idx)) ∨
      ((handed s).Perm (List.range (pieceCount d.length info.pieceLength)) ∧ s.ready = [] ∧ FilesOver fs s.fs w.cwd (listedFiles info) d) := by
  obtain ⟨n, hk⟩ := among_known (among_of hst) hi
  have hn := known_count hk hd hfit.length
  have hidle : s.mail = [] ∧ s.queue = [] ∧ s.busy = [] := by
    refine Classical.byContradiction fun hne => ?_
    have hf : s.mail ≠ [] ∨ s.queue ≠ [] ∨ s.busy ≠ [] := by
      by_cases h1 : s.mail = []
      · by_cases h2 : s.queue = []
        · exact .inr (.inr fun h3 => hne ⟨h1, h2, h3⟩)
        · exact .inr (.inl h2)
      · exact .inl h1
    obtain ⟨t, h1, h2, h3, h4⟩ := can_step hk (by rw [hl]; decide) (by
      rw [hn]
      intro i hi
      obtain ⟨net, f, pc, h, -⟩ := serve_of hsha hd hfit i hi
      exact ⟨net, f, pc, h⟩) hf
    have := hend t h1
    rw [h2, h3, h4] at this
    omega
  have hflight : flight s = [] := by
    simp [flight, hidle.1, hidle.2.1, hidle.2.2, reports]
  rcases C66_always_partial hlen hd hlay hdl hst hi with hc | ⟨hup, -⟩
  · exact .inl hc
  · have hready : s.ready = [] := by
      cases hr : s.ready with
      | nil => rfl
      | cons r ready =>
        exfalso
        have := hend _ (.write s r ready hup hr _ _ rfl)
        simp only [peersReported, downloadsFailed] at this
        omega
    rcases at_rest_over hlen hd hlay hdl hst hi hs hflight hl hready with hc | hfiles
    · exact .inl hc
    · refine .inr ⟨?_, hready, hfiles⟩
      have hcl : contentLength info = d.length := by rw [contentLength_listed, hd.total]
      have := C43_all_handed_partial (among_of (hst)) hi (.inr (by rw [hcl]; exact hfit.length)) hs hl hflight
      rw [count, hcl] at this
      exact this

/-- C74 with room for the files: in the end they are right. Missing: as for `C74_ends_over_partial`. -/
theorem C74_ends_complete_partial {w : World} {info : Info} {d infoHash : Bytes} {fs : FS} {s : Sys} (hsha : ∀ b, (w.sha b).length = 20)
    (hlen : 2 < infoHash.length) (hd : Describes w.sha info d) (hfit : Fits info d)
    (hlay : Layout w.cwd fs (listedFiles info) d info.pieceLength) (hdl : ∀ f ∈ listedFiles info, f.path.head? ≠ some b!"downloads")
    (hst : Steps w (Sys.init infoHash fs) s) (hi : s.torrent.info = some info) (hs : s.torrent.initiated = true) (hl : s.lost = [])
    (hend : ∀ t, Step w s t → peersReported s < peersReported t ∨ downloadsFailed s < downloadsFailed t ∨ s.lost.length < t.lost.length) :
    (∃ r ∈ s.written, Collision w.sha r.piece (piece d info.pieceLength r.idx)) ∨
      ((handed s).Perm (List.range (pieceCount d.length info.pieceLength)) ∧ s.ready = [] ∧ FilesRight s.fs w.cwd (listedFiles info) d) :=
  (C74_ends_over_partial hsha hlen hd hfit hlay.placeable hdl hst hi hs hl hend).imp_right fun ⟨a, b, c⟩ => ⟨a, b, over_layout hlay c⟩

/-! ### Non-vacuity -/

theorem steps_trace {w : World} {s t : Sys} (h : Steps w s t) : ∃ k, Trace w s k t := by
  induction h with
  | refl => exact ⟨0, .refl _⟩
  | tail _ hs ih =>
    obtain ⟨k, hk⟩ := ih
    exact ⟨k + 1, .tail hk hs⟩

/-- A started torrent handles new peers without doing anything else. -/
theorem drain_peers {w : World} {info : Info} {n : Nat} : ∀ (l : List Mail) (s : Sys), s.mail = l → Known w info n s → s.torrent.initiated = true → flight s = [] →
    ∃ t, Steps w s t ∧ t.mail = [] ∧ t.queue = [] ∧ t.busy = [] ∧ t.lost = s.lost ∧ t.ready = s.ready ∧ t.torrent.initiated = true := by
  intro l
  induction l with
  | nil =>
    intro s hm _ hs hf
    simp only [flight, List.append_eq_nil_iff, List.map_eq_nil_iff] at hf
    exact ⟨s, .refl s, hm, hf.1.1, hf.1.2, rfl, rfl, hs⟩
  | cons m rest ih =>
    intro s hm h hs hf
    have hf' := hf
    simp only [flight, List.append_eq_nil_iff, List.map_eq_nil_iff] at hf'
    cases m with
    | success e p i => rw [hm] at hf'; simp [reports] at hf'
    | failed e i => rw [hm] at hf'; simp [reports] at hf'
    | found p =>
      have hst : Step w s (s.after (.found p) rest ⟨.ok (), s.torrent.addPeer p, [], []⟩) := by
        have := Step.found (w := w) s p rest h.up hm info h.hasInfo (List.replicate 5 (s.torrent.addPeer p).peers) (by simp) (by
          intro l hl
          rw [List.eq_of_mem_replicate hl])
        rw [Torrent.onReady, if_neg (by simp [Torrent.addPeer, hs])] at this
        exact this
      obtain ⟨t, h1, h2⟩ := ih _ rfl (known_step h hst) hs (by
        simp only [flight, Sys.after, hf'.1.1, hf'.1.2]
        have := hf'.2
        rw [hm] at this
        simpa [reports] using this)
      refine ⟨t, Steps.trans (Steps.single hst) h1, h2.1, h2.2.1, h2.2.2.1, h2.2.2.2.1, ?_, h2.2.2.2.2.2⟩
      rw [h2.2.2.2.2.1]
      simp [Sys.after]

/-- Where nothing is left to do, only a new peer can happen. -/
theorem rest_ends {w : World} {s : Sys} (hm : s.mail = []) (hq : s.queue = []) (hb : s.busy = []) (hr : s.ready = []) :
    ∀ t, Step w s t → peersReported s < peersReported t := by
  intro t hst
  cases hst with
  | announce bytes p hp => simp [peersReported]
  | take r queue h => rw [hq] at h; cases h
  | finishOk pre post r h => rw [hb] at h; simp at h
  | finishErr pre post r h => rw [hb] at h; simp at h
  | finishPanic pre post r h => rw [hb] at h; simp at h
  | success endpoint piece idx rest hd h => rw [hm] at h; cases h
  | failed endpoint idx rest hd h => rw [hm] at h; cases h
  | collect p rest hd h => rw [hm] at h; cases h
  | found p rest hd h => rw [hm] at h; cases h
  | write r ready hu h => rw [hr] at h; cases h

/-- The hypotheses of `C74_ends_complete_partial` and of both parts of `C74_steps` can be met, in every world with 20-byte hashes, with a torrent of
two pieces. -/
example (w : World) (hsha : ∀ b, (w.sha b).length = 20) : ∃ k fs s, Trace w (Sys.init (List.replicate 20 7) fs) k s ∧
    Layout w.cwd fs (listedFiles (threeBytes w.sha)) [1, 2, 3] 2 ∧ s.torrent.info = some (threeBytes w.sha) ∧ s.torrent.initiated = true ∧ s.lost = [] ∧
    waiting s = [] ∧ s.queue = [] ∧ s.busy = [] ∧ s.mail = [] ∧ s.ready = [] ∧ (∀ t, Step w s t → peersReported s < peersReported t) := by
  have hfit : Fits (threeBytes w.sha) [1, 2, 3] := ⟨by decide, by show pieceCount 3 2 ≤ 2 ^ 32; decide, by show 2 * pieceCount 3 2 < 2 ^ 64; decide⟩
  have hd := threeBytes_describes hsha
  have hdl : ∀ f ∈ listedFiles (threeBytes w.sha), f.path.head? ≠ some b!"downloads" := by
    intro f hf
    rw [List.mem_singleton.mp hf]
    show some b!"a" ≠ some b!"downloads"
    decide
  have hst := run_started (w := w) (infoHash := List.replicate 20 7) (info := threeBytes w.sha) (n := 2) (by decide) (threeBytes_typed _)
    (threeBytes_total _ _) (by decide)
  obtain ⟨t, h1, h2, hini, -, h3, h4⟩ := can_finish hsha (by decide) hd hfit (threeBytes_layout w _) hdl hst rfl rfl rfl
  have hg := h3 ⟨fun e p i hx => (by cases hx), fun r hr => (by cases hr)⟩
  rcases h4 with ⟨r, hr, hne, -⟩ | ⟨h5, h6, h7, -⟩
  · exact absurd (hg.2 r (List.mem_append_left _ hr)) hne
  · obtain ⟨n, hk⟩ := among_known (among_of (hst.trans h1)) h2
    obtain ⟨u, u1, u2, u3, u4, u5, u6, u7⟩ := drain_peers _ t rfl hk hini h5
    have hku := known_steps hk u1
    obtain ⟨k, hk'⟩ := steps_trace ((hst.trans h1).trans u1)
    refine ⟨k, _, u, hk', threeBytes_layout w _, hku.hasInfo, u7, by rw [u5, h6], ?_, u3, u4, u2, by rw [u6, h7],
      rest_ends u2 u3 u4 (by rw [u6, h7])⟩
    refine Classical.byContradiction fun hne => ?_
    have := hku.full u7 hne
    have hfl : flight u = [] := by simp [flight, u2, u3, u4, reports]
    rw [hfl, u5, h6] at this
    simp at this

/-- There are endless runs: peers reported without end. -/
example (w : World) : ∃ run : Nat → Sys, run 0 = Sys.init b!"hash" (fun _ => none) ∧ ∀ i, Step w (run i) (run (i + 1)) := by
  refine ⟨fun i => { Sys.init b!"hash" (fun _ => none) with mail := List.replicate i (.found ⟨b!"1.2.3.4", 80⟩) }, rfl, ?_⟩
  intro i
  have := Step.announce (w := w) { Sys.init b!"hash" (fun _ => none) with mail := List.replicate i (.found ⟨b!"1.2.3.4", 80⟩) } [1, 2, 3, 4, 0, 80]
    ⟨b!"1.2.3.4", 80⟩ (by decide +kernel)
  simp only [← List.replicate_succ'] at this
  exact this

end RustBit
