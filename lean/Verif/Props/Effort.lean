/-
C122: with one good peer a torrent takes so many attempts, so many bytes, so much time.
-/
import Verif.Spec.Effort
import Verif.Props.Timed
import Verif.Props.Strangers

namespace RustBit
open Spec

/-! ### Attempts -/

/-- The attempts that ended, are under way, or took the worker with them. -/
def tries (s : Sys) : Nat := (reports (s.handled ++ s.mail)).length + s.busy.length + s.lost.length

theorem tries_after (s : Sys) {msg : Mail} {rest : List Mail} (o : Outcome) (hm : s.mail = msg :: rest) :
    tries (s.after msg rest o) = tries s ∧ (s.after msg rest o).busy.drop s.busy.length = [] := by
  refine ⟨?_, by simp [Sys.after]⟩
  show (reports (s.handled ++ [msg] ++ rest)).length + s.busy.length + s.lost.length = _
  rw [List.append_assoc, List.singleton_append, ← hm]
  rfl

theorem none_new (pre post : List Request) (r : Request) : (pre ++ post).drop (pre ++ r :: post).length = [] :=
  List.drop_of_length_le (by simp only [List.length_append, List.length_cons]; omega)

/-- A step begins an attempt, or leaves the number of attempts as it is. -/
theorem tries_step {w : World} {s t : Sys} (h : Step w s t) :
    tries t = tries s + (t.busy.drop s.busy.length).length ∧ ∀ r ∈ t.busy.drop s.busy.length, r ∈ s.queue := by
  cases h with
  | announce bytes p hp => simp [tries, reports_append]
  | take r queue hq hb => simp [tries, hq]; omega
  | finishOk pre post r hb tcp f peerId piece hd =>
    dsimp only
    rw [hb, none_new]
    refine ⟨?_, fun r hr => by cases hr⟩
    simp only [tries, reports_append, hb, List.length_append, List.length_cons, List.length_nil, reports_success, reports_failed, reports_nil]
    omega
  | finishErr pre post r hb tcp f peerId e hd =>
    dsimp only
    rw [hb, none_new]
    refine ⟨?_, fun r hr => by cases hr⟩
    simp only [tries, reports_append, hb, List.length_append, List.length_cons, List.length_nil, reports_success, reports_failed, reports_nil]
    omega
  | finishPanic pre post r hb tcp f peerId hd =>
    dsimp only
    rw [hb, none_new]
    refine ⟨?_, fun r hr => by cases hr⟩
    simp only [tries, hb, List.length_append, List.length_cons, List.length_nil, reports_success, reports_failed, reports_nil]
    omega
  | success e piece i rest hd hm => have := tries_after s (s.torrent.onSuccess e piece i) hm; rw [this.1, this.2]; simp
  | failed e i rest hd hm shuffled hs => have := tries_after s (s.torrent.onFailed shuffled e i) hm; rw [this.1, this.2]; simp
  | collect p rest hd hm hi tcp f peerId room collected fs hh hc =>
    have := tries_after s ((s.torrent.addPeer p).onCollected w.build collected) hm
    refine ⟨?_, fun r hr => ?_⟩
    · have e := this.1
      show tries (s.after (.found p) rest ((s.torrent.addPeer p).onCollected w.build collected)) = tries s + (s.busy.drop s.busy.length).length
      rw [e]
      simp
    · have hr : r ∈ s.busy.drop s.busy.length := hr
      simp at hr
  | found p rest hd hm info hi shuffles hn hs => have := tries_after s ((s.torrent.addPeer p).onReady info shuffles) hm; rw [this.1, this.2]; simp
  | write r ready hu hr res fs hw => simp [tries]

theorem tries_move {w : World} {s t : Slot} (h : Move w s t) :
    tries t.sys = tries s.sys + (t.sys.busy.drop s.sys.busy.length).length ∧ ∀ r ∈ t.sys.busy.drop s.sys.busy.length, r ∈ s.sys.queue := by
  cases h with
  | still hp fs e => rw [e]; simp [tries]
  | act hp fs hst hw => exact tries_step (s := { s.sys with fs }) hst
  | told hp fs p e => rw [e]; simp [tries, reports_append]
  | begin ws hp e => rw [e]; simp
  | part x xs hp e => rw [e]; simp
  | done r ready up hr e => rw [e]; simp [Slot.done, tries]

theorem begun_succ {run : Nat → App} {k i : Nat} {s t : Slot} (hs : (run i).proc.slots[k]? = some s) (ht : (run (i + 1)).proc.slots[k]? = some t) :
    begun run k (i + 1) = begun run k i ++ t.sys.busy.drop s.sys.busy.length := by
  show begun run k i ++ _ = _
  rw [hs, ht]

/-- Every attempt that began has ended, is under way, or took the worker with it. -/
theorem begun_tries {w : World} {Q : Info → Prop} {fs : FS} {n : Nat} {run : Nat → App} (h : Run w Q fs n run) {k : Nat} {s : Slot}
    (hk : (run 0).proc.slots[k]? = some s) {i : Nat} {t : Slot} (ht : (run i).proc.slots[k]? = some t) : tries s.sys + (begun run k i).length = tries t.sys := by
  obtain ⟨f, f0, fk, fm⟩ := run_slots h hk
  have main : ∀ i, tries s.sys + (begun run k i).length = tries (f i).sys := by
    intro i
    induction i with
    | zero => rw [f0]; rfl
    | succ i ih =>
      rw [begun_succ (fk i) (fk (i + 1)), List.length_append, (tries_move (fm i)).1]
      omega
  have := fk i
  rw [ht] at this
  rw [Option.some.inj this]
  exact main i

/-- What was handed to the writer is what was reported as downloaded. -/
theorem handed_succeeded {w : World} {s : Sys} (h : Among w s) : handed s = succeeded s.handled := by
  induction h with
  | init => rfl
  | disk _ _ ih => exact ih
  | wrote _ r ready hu hr fs up ih => rw [← ih]; simp [handed, hr]
  | @step s t hs hst ih =>
    have key : ∀ {msg rest} {o : Outcome}, o.ready.map Ready.idx = succeeded [msg] → handed (s.after msg rest o) = succeeded (s.after msg rest o).handled := by
      intro msg rest o ho
      show (s.written ++ (s.ready ++ o.ready)).map Ready.idx = succeeded (s.handled ++ [msg])
      rw [succeeded_append, ← ih, ← ho]
      simp [handed]
    cases hst with
    | announce => exact ih
    | take => exact ih
    | finishOk => exact ih
    | finishErr => exact ih
    | finishPanic => exact ih
    | write r ready hu hr res fs hw => rw [← ih]; simp [handed, hr]
    | success e piece i rest hd hm =>
      rcases among_inv hs with h0 | ⟨info, n, hk⟩
      · obtain ⟨p, hp, -⟩ := h0.mail (.success e piece i) (by rw [hm]; exact List.mem_cons_self)
        cases hp
      · obtain ⟨files, hfiles⟩ := getFiles_of_total hk.total
        refine key ?_
        simp only [Torrent.onSuccess, hk.hasInfo, hfiles, hk.pool]
        rfl
    | failed e i rest hd hm shuffled hp =>
      refine key ?_
      unfold Torrent.onFailed
      split
      · rfl
      · dsimp only
        split
        · split <;> rfl
        · rfl
    | collect p rest hd hm hi tcp f peerId room collected fs hh hc =>
      have : ((s.torrent.addPeer p).onCollected w.build collected).ready = [] := by
        unfold Torrent.onCollected
        split <;> first | rfl | (split <;> rfl)
      exact key (msg := .found p) (rest := rest) (by rw [this]; rfl)
    | found p rest hd hm info hi shuffles hn hp =>
      refine key ?_
      unfold Torrent.onReady
      split
      · split <;> rfl
      · rfl

theorem reports_split (l : List Mail) : (reports l).length = (succeeded l).length + failedIn l := by
  induction l with
  | nil => rfl
  | cons m l ih => cases m <;> simp [succeeded, failedIn] at ih ⊢ <;> omega

/-- C122: every attempt is accounted for: those that a torrent has begun since before it started are those whose piece it has handed over or is about to, those that
failed, those under way, and those that took the worker with them. -/
theorem C122_account {w : World} {Q : Info → Prop} {fs : FS} {n : Nat} {run : Nat → App} (h : Run w Q fs n run) {k : Nat} {s : Slot}
    (hk : (run 0).proc.slots[k]? = some s) (hi : s.sys.torrent.initiated = false) {i : Nat} {t : Slot} (ht : (run i).proc.slots[k]? = some t) :
    (begun run k i).length = (downloaded t.sys).length + downloadsFailed t.sys + t.sys.busy.length + t.sys.lost.length := by
  have ha := C84_among (run_asteps h 0) (List.mem_of_getElem? hk)
  have hb := C84_among (run_asteps h i) (List.mem_of_getElem? ht)
  have h1 := begun_tries h hk ht
  have h0 : tries s.sys = 0 := by
    have hu := unstarted_failures ha hi
    have hh : handed s.sys = [] ∧ s.sys.lost = [] := by
      rcases among_inv ha with h | ⟨info, n, hk⟩
      · exact (C40_before ha h.info).2.2
      · exact ⟨(hk.idle hi).2.1, (hk.idle hi).2.2.1⟩
    have h2 := handed_succeeded ha
    rw [hh.1] at h2
    have h3 := asked_length s.sys
    rw [hu.2] at h3
    simp only [flight, List.length_append, List.length_map, List.length_nil] at h3
    have h4 := reports_split s.sys.handled
    rw [← h2, hu.1] at h4
    simp only [tries, reports_append, List.length_append, hh.2, List.length_nil] at h4 ⊢
    omega
  have h2 := handed_succeeded hb
  have h3 := reports_split (t.sys.handled ++ t.sys.mail)
  rw [succeeded_append, ← h2, ← downloaded_eq] at h3
  have h4 : downloadsFailed t.sys = failedIn (t.sys.handled ++ t.sys.mail) := rfl
  simp only [tries] at h1 h0
  omega

theorem succeeded_le_reports (l : List Mail) : (succeeded l).length ≤ (reports l).length := by
  have := reports_split l
  omega

/-- C122: so attempts beyond one for each piece are failures. -/
theorem C122_failures {w : World} {Q : Info → Prop} {fs : FS} {n : Nat} {run : Nat → App} (h : Run w Q fs n run) {k : Nat} {s : Slot}
    (hk : (run 0).proc.slots[k]? = some s) (hi : s.sys.torrent.initiated = false) {i : Nat} {t : Slot} (ht : (run i).proc.slots[k]? = some t) {info : Info}
    (hinfo : t.sys.torrent.info = some info) : (begun run k i).length ≤ wrappedCount info + downloadsFailed t.sys := by
  have h1 := C122_account h hk hi ht
  have h2 := (C84_exact (run_asteps h i) (List.mem_of_getElem? ht) hinfo).length_eq
  have h3 := succeeded_le_reports t.sys.mail
  simp only [downloaded_eq, List.length_append, flight, List.length_map, List.length_range] at h1 h2
  omega

/-- C122: as long as there is a peer that has not failed twice whenever somebody is asked, a torrent takes at most one attempt for each piece, six for each peer it has been
told of, and five. Missing: runs without such a peer (refuted below). -/
theorem C122_attempts_partial {w : World} {Q : Info → Prop} {fs : FS} {n : Nat} {run : Nat → App} (h : Run w Q fs n run) {k : Nat} {s : Slot}
    (hk : (run 0).proc.slots[k]? = some s) (hi : s.sys.torrent.initiated = false)
    (hg : ∀ i t, (run i).proc.slots[k]? = some t → asked t.sys ≠ [] → GoodPeer t.sys.handled) {i : Nat} {t : Slot} (ht : (run i).proc.slots[k]? = some t) {info : Info}
    (hinfo : t.sys.torrent.info = some info) :
    (begun run k i).length ≤ wrappedCount info + 6 * t.sys.torrent.peers.length + 5 ∧ (begun run k i).length ≤ wrappedCount info + 71609 := by
  have h1 := C122_failures h hk hi ht hinfo
  have h2 := (C120_six h hk hi hg ht).2
  have h3 := C109_peers (run_asteps h i) (List.mem_of_getElem? ht)
  omega

/-- C122: before it has the metadata a torrent begins no attempt to get a piece. -/
theorem C122_none {w : World} {Q : Info → Prop} {fs : FS} {n : Nat} {run : Nat → App} (h : Run w Q fs n run) {k : Nat} {s : Slot}
    (hk : (run 0).proc.slots[k]? = some s) (hi : s.sys.torrent.initiated = false) {i : Nat} {t : Slot} (ht : (run i).proc.slots[k]? = some t)
    (hini : t.sys.torrent.initiated = false) : begun run k i = [] := by
  have ha := C84_among (run_asteps h i) (List.mem_of_getElem? ht)
  have h1 := C122_account h hk hi ht
  have hu := unstarted_failures ha hini
  have hh : handed t.sys = [] ∧ t.sys.lost = [] := by
    rcases among_inv ha with h | ⟨info, n, hk⟩
    · exact (C40_before ha h.info).2.2
    · exact ⟨(hk.idle hini).2.1, (hk.idle hini).2.2.1⟩
  have h3 := asked_length t.sys
  rw [hu.2] at h3
  have h4 := reports_split t.sys.mail
  have h5 : downloadsFailed t.sys = failedIn t.sys.handled + failedIn t.sys.mail := failedIn_append _ _
  simp only [flight, List.length_append, List.length_map, List.length_nil] at h3
  simp only [downloaded_eq, hh.1, hh.2, List.length_append, List.length_nil] at h1
  exact List.length_eq_zero_iff.mp (by omega)

/-- C122: every attempt is for a piece of the torrent, from a peer that has been named. -/
theorem C122_asked {w : World} {Q : Info → Prop} {fs : FS} {n : Nat} {run : Nat → App} (h : Run w Q fs n run) {k : Nat} {s : Slot}
    (hk : (run 0).proc.slots[k]? = some s) {i : Nat} {t : Slot} (ht : (run i).proc.slots[k]? = some t) {info : Info}
    (hinfo : t.sys.torrent.info = some info) : ∀ r ∈ begun run k i, r.info = info ∧ r.idx < wrappedCount info ∧ NamedPeer r.endpoint t.sys.handled := by
  obtain ⟨f, f0, fk, fm⟩ := run_slots h hk
  have hmem : ∀ j, f j ∈ (run j).proc.slots := fun j => List.mem_of_getElem? (fk j)
  have hlog : ∀ j d, ∃ l, (f (j + d)).sys.handled = (f j).sys.handled ++ l := by
    intro j d
    induction d with
    | zero => exact ⟨[], by simp⟩
    | succ d ih =>
      obtain ⟨l, hl⟩ := ih
      rcases handled_one_move (fm (j + d)) with e | ⟨m, rest, -, e⟩
      · exact ⟨l, by rw [← hl]; exact e⟩
      · exact ⟨l ++ [m], by rw [← List.append_assoc, ← hl]; exact e⟩
  have main : ∀ i r, r ∈ begun run k i → ∃ j, j ≤ i ∧ r ∈ (f j).sys.queue := by
    intro i
    induction i with
    | zero => intro r hr; cases hr
    | succ i ih =>
      intro r hr
      rw [begun_succ (fk i) (fk (i + 1))] at hr
      rcases List.mem_append.mp hr with hr | hr
      · obtain ⟨j, hj, hq⟩ := ih r hr
        exact ⟨j, by omega, hq⟩
      · exact ⟨i, by omega, (tries_move (fm i)).2 r hr⟩
  intro r hr
  obtain ⟨j, hj, hq⟩ := main i r hr
  have ha := C84_among (run_asteps h j) (hmem j)
  have et : t = f i := by have := fk i; rw [ht] at this; exact Option.some.inj this
  rcases among_inv ha with h0 | ⟨info', c, hkn⟩
  · rw [h0.queue] at hq; cases hq
  · obtain ⟨g, g0, v⟩ := run_view (Run.shift h j) (k := k) (s := f j) (fk j) hkn.hasInfo
    obtain ⟨d, rfl⟩ := Nat.exists_eq_add_of_le hj
    have hg := v.at_ d
    rw [fk (j + d)] at hg
    have hi' := (v.known d).hasInfo
    rw [← Option.some.inj hg, ← et, hinfo] at hi'
    cases hi'
    refine ⟨(hkn.requests r (List.mem_append_left _ hq)).1, ?_, ?_⟩
    · have hp := C84_exact (run_asteps h j) (hmem j) hkn.hasInfo
      refine List.mem_range.mp (hp.mem_iff.mp ?_)
      simp only [flight, List.mem_append, List.mem_map]
      exact .inl (.inl (.inr (.inl (.inl ⟨r, hq, rfl⟩))))
    · obtain ⟨p, hp, e⟩ := (heardOf_among ha).requests r (List.mem_append_left _ hq)
      obtain ⟨l, hl⟩ := hlog j d
      exact ⟨p, by rw [et, hl]; exact List.mem_append_left _ hp, e⟩

/-- C122: an address is asked for the metadata at most once for each time it has been named, whoever is there, and all addresses together 18 * 663 times at most. -/
theorem C122_metadata {w : World} {Q : Info → Prop} {fs : FS} {n : Nat} {run : Nat → App} (h : Run w Q fs n run) {k : Nat} {s : Slot}
    (hk : (run 0).proc.slots[k]? = some s) {i : Nat} {t : Slot} (ht : (run i).proc.slots[k]? = some t) :
    (∀ e, (askedForMetadata run k i).count e + timesNamed e s.sys.handled ≤ timesNamed e t.sys.handled) ∧
    (askedForMetadata run k i).length + s.sys.torrent.peers.length ≤ t.sys.torrent.peers.length ∧ t.sys.torrent.peers.length ≤ 18 * 663 := by
  obtain ⟨f, f0, fk, fm⟩ := run_slots h hk
  have hmem : ∀ j, f j ∈ (run j).proc.slots := fun j => List.mem_of_getElem? (fk j)
  have among : ∀ j, Among w (f j).sys := fun j => C84_among (run_asteps h j) (hmem j)
  have one : ∀ {l : List Mail} {m : Mail}, (l ++ [m]).drop l.length = [m] := fun {l m} => by simp
  have main : ∀ i, (∀ e, (askedForMetadata run k i).count e + timesNamed e s.sys.handled ≤ timesNamed e (f i).sys.handled) ∧
      (askedForMetadata run k i).length + (peersAfter s.sys.handled).length ≤ (peersAfter (f i).sys.handled).length := by
    intro i
    induction i with
    | zero => rw [f0]; exact ⟨fun e => by simp [askedForMetadata], by simp [askedForMetadata]⟩
    | succ i ih =>
      have hstep : askedForMetadata run k (i + 1) = askedForMetadata run k i ++ (if (f i).sys.torrent.info = none then
          namedIn ((f (i + 1)).sys.handled.drop (f i).sys.handled.length) else []) := by
        show askedForMetadata run k i ++ _ = _
        rw [fk i, fk (i + 1)]
      rw [hstep]
      rcases handled_one_move (fm i) with e | ⟨m, rest, -, e⟩
      · rw [e]
        simpa [namedIn] using ih
      · rw [e, one]
        have hlen : ∀ m, (peersAfter ((f i).sys.handled ++ [m])).length = (peersAfter (f i).sys.handled).length + (peersAfter [m]).length := by
          intro m
          generalize (f i).sys.handled = l
          induction l with
          | nil => simp [peersAfter]
          | cons x l ih => cases x <;> simp [peersAfter, ih] <;> omega
        refine ⟨fun e => ?_, ?_⟩
        · rw [timesNamed_append, List.count_append]
          have h1 := ih.1 e
          have h2 : (if (f i).sys.torrent.info = none then namedIn [m] else []).count e ≤ timesNamed e [m] := by
            split
            · cases m with
              | found p => simp [namedIn, timesNamed, List.count_singleton]
              | _ => simp [namedIn]
            · simp
          omega
        · rw [hlen, List.length_append]
          have h1 := ih.2
          have h2 : (if (f i).sys.torrent.info = none then namedIn [m] else []).length ≤ (peersAfter [m]).length := by
            split
            · cases m with
              | found p => simp [namedIn, peersAfter]
              | _ => simp [namedIn]
            · simp
          omega
  have et : t = f i := by have := fk i; rw [ht] at this; exact Option.some.inj this
  have h1 := main i
  have h2 := C109_peers (run_asteps h i) (hmem i)
  have h0 : s.sys.torrent.peers = _ := C47_counters (f0 ▸ among 0)
  rw [et, C47_counters (among i), h0]
  rw [C47_counters (among i)] at h2
  exact ⟨h1.1, h1.2, by omega⟩

/-! ### Bytes -/

theorem total_content {ε : Type} {m : Build} {info : Info} {n : Nat} (h : (pieceTotal m info : Res ε Nat) = .ok n) (h64 : contentLength info < 2 ^ 64) :
    (info.getTotalLength m : Res PeerManagerError Nat) = .ok (contentLength info) := by
  unfold pieceTotal Info.getTotalLength at h
  unfold contentLength at h64 ⊢
  unfold Info.getTotalLength
  cases hf : info.files with
  | none =>
    cases hl : info.length with
    | none => rw [hf, hl] at h; cases h
    | some t => rfl
  | some fs =>
    rw [hf] at h64
    exact usum_of_lt _ _ h64

/-- The bytes that attempts for pieces of a torrent send at most. -/
theorem sent_le {w : World} (hsha : ∀ x, (w.sha x).length = 20) {info : Info} {n : Nat} (ht : (pieceTotal w.build info : Res Unit Nat) = .ok n)
    (h64 : contentLength info + info.pieceLength < 2 ^ 64) (h32 : info.pieceLength < 2 ^ 32) (hc : wrappedCount info ≤ 2 ^ 32) (x : Nat → Meets) (l : List Request)
    (hl : ∀ r ∈ l, r.info = info ∧ r.idx < wrappedCount info) : bytesSent w x l ≤ l.length * (137 + 17 * ((info.pieceLength + 16383) / 16384)) := by
  induction l with
  | nil => exact Nat.zero_le _
  | cons r l ih =>
    have h1 := ih fun r hr => hl r (List.mem_cons_of_mem _ hr)
    obtain ⟨rfl, hi⟩ := hl r List.mem_cons_self
    have hcount := wrappedCount_eq (info := r.info) (by omega)
    have hpos : 0 < r.info.pieceLength := by
      rcases Nat.eq_zero_or_pos r.info.pieceLength with h0 | h0
      · rw [hcount] at hi; simp [count, h0] at hi
      · exact h0
    have hin : r.idx * r.info.pieceLength < contentLength r.info ∧ r.info.pieceLength * (r.idx + 1) < 2 ^ 64 := by
      rw [hcount] at hi
      unfold count at hi
      have h2 := (Nat.le_div_iff_mul_le hpos).mp hi
      rw [Nat.succ_mul] at h2
      have h3 := Nat.mul_comm r.info.pieceLength r.idx
      rw [Nat.mul_succ]
      omega
    have h2 := C96_volume_partial w.sha hsha w.build (x l.length).net (x l.length).fuel (x l.length).peerId (x l.length).twenty r.info r.idx (contentLength r.info)
      (total_content ht (by omega)) hin.1 hin.2 (by omega) (by omega) (by unfold pieceSize; omega)
    have h3 : pieceSize r.info.pieceLength r.idx (contentLength r.info) ≤ r.info.pieceLength := by unfold pieceSize; omega
    have h4 : (pieceSize r.info.pieceLength r.idx (contentLength r.info) + 16383) / 16384 ≤ (r.info.pieceLength + 16383) / 16384 := Nat.div_le_div_right (by omega)
    simp only [bytesSent, List.length_cons]
    rw [Nat.succ_mul]
    omega

/-- C122: as long as there is a peer that has not failed twice whenever somebody is asked, all attempts of a torrent together send so many bytes at most, whatever the peers do: 137 and 17 for
each block of a piece, for each piece, six times for each peer, and five times. Missing: runs without such a peer; metadata with numbers out of range. -/
theorem C122_traffic_partial {w : World} (hsha : ∀ x, (w.sha x).length = 20) {Q : Info → Prop} {fs : FS} {n : Nat} {run : Nat → App} (h : Run w Q fs n run) {k : Nat} {s : Slot}
    (hk : (run 0).proc.slots[k]? = some s) (hi : s.sys.torrent.initiated = false)
    (hg : ∀ i t, (run i).proc.slots[k]? = some t → asked t.sys ≠ [] → GoodPeer t.sys.handled) {i : Nat} {t : Slot} (ht : (run i).proc.slots[k]? = some t) {info : Info}
    (hinfo : t.sys.torrent.info = some info) (h64 : contentLength info + info.pieceLength < 2 ^ 64) (h32 : info.pieceLength < 2 ^ 32) (hc : wrappedCount info ≤ 2 ^ 32)
    (x : Nat → Meets) :
    bytesSent w x (begun run k i) ≤ (wrappedCount info + 6 * t.sys.torrent.peers.length + 5) * (137 + 17 * ((info.pieceLength + 16383) / 16384)) := by
  obtain ⟨c, hkn⟩ := among_known (C84_among (run_asteps h i) (List.mem_of_getElem? ht)) hinfo
  have h1 := sent_le hsha hkn.total h64 h32 hc x (begun run k i) fun r hr => ⟨(C122_asked h hk ht hinfo r hr).1, (C122_asked h hk ht hinfo r hr).2.1⟩
  exact Nat.le_trans h1 (Nat.mul_le_mul_right _ (C122_attempts_partial h hk hi hg ht hinfo).1)

/-! ### Time -/

theorem timed_shift {run : Nat → App} {k : Nat} {clock : Nat → Nat} {a d b : Nat} (h : Timed run k clock a d b) (i : Nat) :
    Timed (fun j => run (i + j)) k (fun j => clock (i + j)) a d b := by
  have thr : ∀ {P : Sys → Prop} {x y : Nat}, Throughout (fun j => run (i + j)) k P x y → Throughout run k P (i + x) (i + y) := by
    intro P x y hx m h1 h2
    obtain ⟨e, rfl⟩ := Nat.exists_eq_add_of_le (show i ≤ m by omega)
    exact hx e (by omega) (by omega)
  exact ⟨fun j => h.mono (i + j), fun p x y hxy ht => h.takes p (i + x) (i + y) (by omega) (thr ht), fun p x y hxy ht => h.ends p (i + x) (i + y) (by omega) (thr ht),
    fun p x y hxy ht => h.handles p (i + x) (i + y) (by omega) (thr ht)⟩

theorem failedPieces_length (l : List Mail) : (failedPieces l).length = failedIn l := by
  induction l with
  | nil => rfl
  | cons m l ih => cases m <;> simp [failedPieces, failedIn] at ih ⊢ <;> omega

/-- C122: as long as there is a peer that has not failed twice whenever somebody is asked, and no worker dies, every piece has been handed to the writer after so long: if
requests wait for a worker no longer than `a`, downloads take no longer than `d` and reports wait no longer than `b`, after `a + d + b` for every five of the pieces and of six failures
for each peer, and for each of these failures. Missing: runs without such a peer; dead workers. -/
theorem C122_time_partial {w : World} {Q : Info → Prop} {fs : FS} {n : Nat} {run : Nat → App} (h : Run w Q fs n run) {k : Nat} {clock : Nat → Nat} {a d b : Nat}
    (hT : Timed run k clock a d b) {s : Slot} (hk : (run 0).proc.slots[k]? = some s) (hi : s.sys.torrent.initiated = false)
    (hg : ∀ i t, (run i).proc.slots[k]? = some t → asked t.sys ≠ [] → GoodPeer t.sys.handled) {i j : Nat} (hij : i ≤ j) {t u : Slot} (ht : (run i).proc.slots[k]? = some t)
    (hu : (run j).proc.slots[k]? = some u) {info : Info} (hinfo : t.sys.torrent.info = some info) (hini : t.sys.torrent.initiated = true) (hl : u.sys.lost = [])
    (hc : clock i + ((wrappedCount info + (6 * u.sys.torrent.peers.length + 5) + 4) / 5 + (6 * u.sys.torrent.peers.length + 5)) * (a + d + b) < clock (j + 1)) :
    (handed u.sys).Perm (List.range (wrappedCount info)) := by
  obtain ⟨e, rfl⟩ := Nat.exists_eq_add_of_le hij
  have hk' : (fun j => run (i + j)) 0 = run i := rfl
  have h5 : u.sys.workers = 5 := by
    obtain ⟨g, g0, v⟩ := run_view (Run.shift h i) (k := k) (s := t) ht hinfo
    have hg := v.at_ e
    have hg : (run (i + e)).proc.slots[k]? = some (g e) := hg
    rw [hu] at hg
    have := (v.known e).workers
    rw [← Option.some.inj hg, hl] at this
    simpa using this
  obtain ⟨c, hkn⟩ := among_known (C84_among (run_asteps h i) (List.mem_of_getElem? ht)) hinfo
  have hun := unfinished_eq hkn
  rw [pieceTotal_wrapped hkn.total] at hun
  have hfail := (C120_six h hk hi hg hu).2
  have hF : (failedPieces u.sys.handled).length ≤ (failedPieces t.sys.handled).length + (6 * u.sys.torrent.peers.length + 5) := by
    have : downloadsFailed u.sys = failedIn u.sys.handled + failedIn u.sys.mail := failedIn_append _ _
    rw [failedPieces_length]
    omega
  have hle : (unfinished t.sys + (6 * u.sys.torrent.peers.length + 5) + 5 - 1) / 5 ≤ (wrappedCount info + (6 * u.sys.torrent.peers.length + 5) + 4) / 5 := by omega
  have := Nat.mul_le_mul_right (a + d + b) (Nat.add_le_add_right hle (6 * u.sys.torrent.peers.length + 5))
  have main := C113_time (Run.shift h i) (timed_shift hT i) (k := k) (s := t) (t := u) ht hinfo hini (j := e) (W := 5) hu (by omega) (by omega) hF
    (Nat.lt_of_le_of_lt (Nat.add_le_add_left this (clock i)) hc)
  have hp := main.2
  rw [hl, List.append_nil] at hp
  exact hp

/-! ### Without a good peer -/

/-- C122 refuted: without such a peer there is no bound. In every world there is a fair run in which no worker dies, nobody is named after the beginning, and the number of attempts for
a torrent of three bytes exceeds every number. -/
theorem C122_refuted (w : World) (hsha : ∀ b, (w.sha b).length = 20) :
    ∃ run s, Run w (Beside (threeBytes w.sha)) (cachedFs w.cwd (List.replicate 20 17) (threeBytes w.sha)) 1 run ∧ Fair run 0 ∧ (∀ i, (run i).Free 0) ∧
    (run 0).proc.slots[0]? = some s ∧ s.sys.torrent.initiated = false ∧ (∀ i t, (run i).proc.slots[0]? = some t → t.sys.lost = [] ∧ t.sys.told = List.replicate 11 peer0) ∧
    ∀ B, ∃ i, B < (begun run 0 i).length := by
  obtain ⟨A, s, h1, h2, h3, h4, h5, h6, h7, h8, h9, h10, h11, h12⟩ := about_to_start_told w (threeBytes_describes hsha) (by decide) (by decide) (threeBytes_typed _)
    (Q := Beside (threeBytes w.sha)) (.inl rfl)
  obtain ⟨run, r1, r2, r3, r4, r5, r6, -⟩ := C120_failing h1 h2 h3 h4 h5 h6 h7 h8 h9 (by simp [wrappedCount, threeBytes])
  have hk : (run 0).proc.slots[0]? = some s := by rw [r2]; exact h4
  refine ⟨run, s, r1, r3, r4, hk, h12, fun i t ht => ⟨(r5 i t ht).1, ((r5 i t ht).2.2).trans h11⟩, fun B => ?_⟩
  obtain ⟨i, t, ht, hB⟩ := r6 B
  have := C122_account r1 hk h12 ht
  exact ⟨i, by omega⟩

/-! ### Non-vacuity -/

/-- C122_attempts_partial, C122_traffic_partial: in every world there is such a run, in which a torrent of three bytes in two pieces is got: at most 73 attempts and 11242 bytes for the pieces, with
eleven peers. -/
example (w : World) (hsha : ∀ b, (w.sha b).length = 20) : ∃ run s, Run w (Beside (threeBytes w.sha)) (cachedFs w.cwd (List.replicate 20 17) (threeBytes w.sha)) 1 run ∧
    Fair run 0 ∧ (run 0).proc.slots[0]? = some s ∧ s.sys.torrent.initiated = false ∧ s.sys.torrent.info = some (threeBytes w.sha) ∧ Starts s.sys ∧
    (∀ i t, (run i).proc.slots[0]? = some t → asked t.sys ≠ [] → GoodPeer t.sys.handled) ∧ wrappedCount (threeBytes w.sha) = 2 ∧
    contentLength (threeBytes w.sha) + (threeBytes w.sha).pieceLength < 2 ^ 64 ∧ (2 + 6 * 11 + 5) * (137 + 17 * (((threeBytes w.sha).pieceLength + 16383) / 16384)) = 11242 := by
  obtain ⟨A, s, h1, h2, h3, h4, h5, h6, h7, h8, h9, h10, -, h12⟩ := about_to_start_told w (threeBytes_describes hsha) (by decide) (by decide) (threeBytes_typed _)
    (Q := Beside (threeBytes w.sha)) (.inl rfl)
  obtain ⟨run, r1, r2, r3, r4, r5⟩ := C111_served_runs hsha (threeBytes_describes hsha)
    ⟨by decide, by show pieceCount 3 2 ≤ 2 ^ 32; decide, by show 2 * pieceCount 3 2 < 2 ^ 64; decide⟩ h1 h2 h3 h4 h5
  exact ⟨run, s, r1, r3, by rw [r2]; exact h4, h12, h5, h6,
    fun i t ht => good_of_none (C84_among (run_asteps r1 i) (List.mem_of_getElem? ht)) ((r5 i t ht).1.trans h10), by simp [wrappedCount, threeBytes],
    by simp [contentLength, threeBytes], by simp [threeBytes]⟩

/-- C122_time_partial: in every world there is such a run, in which nothing takes for ever, no worker dies, and the torrent starts. -/
example (w : World) (hsha : ∀ b, (w.sha b).length = 20) : ∃ run s g i t, Run w (Beside (threeBytes w.sha)) (cachedFs w.cwd (List.replicate 20 17) (threeBytes w.sha)) 1 run ∧
    Timed run 0 (fun i => i) g g g ∧ (run 0).proc.slots[0]? = some s ∧ s.sys.torrent.initiated = false ∧
    (∀ i t, (run i).proc.slots[0]? = some t → asked t.sys ≠ [] → GoodPeer t.sys.handled) ∧ (∀ i t, (run i).proc.slots[0]? = some t → t.sys.lost = []) ∧
    (run i).proc.slots[0]? = some t ∧ t.sys.torrent.info = some (threeBytes w.sha) ∧ t.sys.torrent.initiated = true := by
  obtain ⟨A, s, h1, h2, h3, h4, h5, h6, h7, h8, h9, h10, -, h12⟩ := about_to_start_told w (threeBytes_describes hsha) (by decide) (by decide) (threeBytes_typed _)
    (Q := Beside (threeBytes w.sha)) (.inl rfl)
  obtain ⟨run, r1, r2, r3, r4, r5⟩ := C111_served_runs hsha (threeBytes_describes hsha)
    ⟨by decide, by show pieceCount 3 2 ≤ 2 ^ 32; decide, by show 2 * pieceCount 3 2 < 2 ^ 64; decide⟩ h1 h2 h3 h4 h5
  have hk : (run 0).proc.slots[0]? = some s := by rw [r2]; exact h4
  have hgood : ∀ i t, (run i).proc.slots[0]? = some t → asked t.sys ≠ [] → GoodPeer t.sys.handled :=
    fun i t ht => good_of_none (C84_among (run_asteps r1 i) (List.mem_of_getElem? ht)) ((r5 i t ht).1.trans h10)
  have hlost : ∀ i t, (run i).proc.slots[0]? = some t → t.sys.lost = [] := fun i t ht => (r5 i t ht).2.trans h7
  obtain ⟨g, hg⟩ := C120_rest r1 r3 r4 hk h5 hgood
  obtain ⟨t, t1, t2, t3, t4, -, t6⟩ := hg g (Nat.le_refl _)
  obtain ⟨f, f0, v⟩ := run_view r1 hk h5
  have et : t = f g := by have := v.at_ g; rw [t1] at this; exact Option.some.inj this
  refine ⟨run, s, g, g, t, r1, rest_timed fun j hj => ?_, hk, h12, hgood, hlost, t1, by rw [et]; exact (v.known g).hasInfo, ?_⟩
  · obtain ⟨t, g1, g2, g3, g4, -⟩ := hg j hj
    exact ⟨t, g1, g2, g3, g4⟩
  · have hp := (t6 h6 (by rw [hlost g t t1]; decide)).length_eq
    rw [hlost g t t1] at hp
    cases hini : t.sys.torrent.initiated with
    | true => rfl
    | false =>
      have := ((v.known g).idle (by rw [← et]; exact hini)).2.1
      rw [← et] at this
      rw [this] at hp
      simp [wrappedCount, threeBytes] at hp

/-- C122_metadata: in every world there is a run in which the peer that is looked at first is asked for the metadata, and has it. -/
example (w : World) (hsha : ∀ b, (w.sha b).length = 20) : ∃ run s e, Run w (Beside (threeBytes w.sha)) (fun _ => none) 1 run ∧ (run 0).proc.slots[0]? = some s ∧
    askedForMetadata run 0 1 = [e] := by
  obtain ⟨L, hL, hall⟩ := three_request w hsha
  obtain ⟨run, h1, -, -, -, h5, -⟩ := hall 0 (by omega)
  obtain ⟨s0, s1, hs0, hn0, hs1, hi1, hp1⟩ := id h5
  obtain ⟨t, ht, hm⟩ := move_step (h1.step 0) (h1.on 0) (h1.on 1) hs0
  have et : t = s1 := by rw [hs1] at ht; exact (Option.some.inj ht).symm
  subst et
  have key : ∃ p, t.sys.handled = s0.sys.handled ++ [.found p] := by
    cases hm with
    | still hp fs e => rw [e] at hi1; exact absurd (hn0.symm.trans hi1) (by simp)
    | told hp fs p e => rw [e] at hi1; exact absurd (hn0.symm.trans hi1) (by simp)
    | begin ws hp e => rw [e] at hi1; exact absurd (hn0.symm.trans hi1) (by simp)
    | part x xs hp e => rw [e] at hi1; exact absurd (hn0.symm.trans hi1) (by simp)
    | done r ready up hr e => rw [e] at hi1; exact absurd (hn0.symm.trans hi1) (by simp)
    | act hp fs hst hw =>
      have ha := C84_among (run_asteps h1 0) (List.mem_of_getElem? hs0)
      have hf := (C40_before ha hn0).2.1
      generalize hs : ({ s0.sys with fs } : Sys) = s at hst
      have e1 : s.torrent.info = none := by rw [← hs]; exact hn0
      have e2 : s.handled = s0.sys.handled := by rw [← hs]
      have e3 : s.mail = s0.sys.mail := by rw [← hs]
      generalize t.sys = u at hst hi1
      rw [← e2]
      cases hst with
      | collect p rest hd hm => exact ⟨p, rfl⟩
      | found p rest hd hm info hi => rw [e1] at hi; cases hi
      | success e piece i rest hd hm => rw [e3] at hm; simp [flight, hm] at hf
      | failed e i rest hd hm => rw [e3] at hm; simp [flight, hm] at hf
      | _ => exact absurd (e1.symm.trans hi1) (by simp)
  obtain ⟨p, hp⟩ := key
  refine ⟨run, s0, p.endpoint, h1, hs0, ?_⟩
  show [] ++ _ = _
  rw [hs0, hs1]
  simp [hn0, hp, namedIn]

end RustBit
