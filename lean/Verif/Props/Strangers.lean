/-
C121: an address that somebody names is not flooded.
-/
import Verif.Spec.Strangers
import Verif.Props.Conversation
import Verif.Props.Failing

namespace RustBit
open Spec

/-! ### What a stranger hears -/

/-- Until it has greeted us nobody hears more than the handshake. -/
theorem initPeer_greeting (net : Net) (p : Peer) (ha : p.active = false) :
    ((initPeer net p).1 ≠ .ok () ∧ ((initPeer net p).2.log = p.log ++ [.sent (newHandshake p.infoHash p.id).asBytes] ∨
      ∃ m, (initPeer net p).2.log = p.log ++ [.sent (newHandshake p.infoHash p.id).asBytes, .got m])) ∨
    ∃ (m : Message) (x : HandshakeMessage) (rest : List Ev), (initPeer net p).2.log = p.log ++ .sent (newHandshake p.infoHash p.id).asBytes :: .got m :: rest ∧
      m.content = .handshake x ∧ x.infoHash = p.infoHash := by
  have h1 : Tracks p [.sent (newHandshake p.infoHash p.id).asBytes]
      (p.sendMessage net (newHandshake p.infoHash p.id)) := by
    have := (tracks_refl p).sent (p.conn.writeAll net).2 (newHandshake p.infoHash p.id).asBytes
    simpa [Peer.sendMessage, Peer.write] using this
  have ha1 : (p.sendMessage net (newHandshake p.infoHash p.id)).active = false := by
    simp [Peer.sendMessage, Peer.write, ha]
  unfold initPeer
  generalize hp1 : p.sendMessage net (newHandshake p.infoHash p.id) = p1 at h1 ha1
  simp only []
  obtain ⟨c, hc⟩ := readAndApply_cases net p1
  rcases hc with hc | hc | hc | ⟨m, hw, hc⟩
  · rw [hc]
    have hn : (!({ p1 with conn := c } : Peer).active) = true := by simp [ha1]
    simp only []
    rw [if_pos hn]
    exact .inl ⟨by simp, .inl h1.log⟩
  · rw [hc]; exact .inl ⟨by simp, .inl h1.log⟩
  · rw [hc]; exact .inl ⟨by simp, .inl h1.log⟩
  · rw [hc]
    have h2 := (h1.conn c).got hw
    by_cases hact : (({ p1 with conn := c }).applyMessage m).active = true
    · have hm : ∃ x, m.content = .handshake x ∧ x.infoHash = p.infoHash := by
        have e : ({ p1 with conn := c } : Peer).active = false := ha1
        have e' : ({ p1 with conn := c } : Peer).infoHash = p.infoHash := h1.hash
        generalize ({ p1 with conn := c } : Peer) = q at e e' hact
        revert hact
        simp only [Peer.applyMessage, Peer.applyState, Peer.applyContent]
        split
        · simp [e]
        · split
          · simp [e]
          · split
            · split
              · simp [e]
              · split <;> simp [e]
              · rename_i x hx
                intro hh
                simp only [decide_eq_true_eq] at hh
                exact ⟨x, hx, by rw [← hh, e']⟩
              · simp [e]
            · simp [e]
      obtain ⟨x, hx, hxh⟩ := hm
      generalize (({ p1 with conn := c }).applyMessage m) = q at h2 hact
      simp only [hact, Bool.not_true, Bool.false_eq_true, if_false]
      have h3 := h2.sent (q.conn.writeAll net).2 newInterested.asBytes
      have e3 : q.sendMessage net newInterested =
          { q with conn := (q.conn.writeAll net).2, log := q.log ++ [.sent newInterested.asBytes] } := rfl
      rw [← e3] at h3
      generalize q.sendMessage net newInterested = q2 at h3
      have h4 := h3.sent (q2.conn.writeAll net).2 extensionHandshakeBytes
      have e4 : q2.sendMetadataHandshakeRequest net = ((q2.conn.writeAll net).1,
          { q2 with conn := (q2.conn.writeAll net).2, log := q2.log ++ [.sent extensionHandshakeBytes] }) := rfl
      rw [e4]
      generalize (Peer.mk _ _ _ _ _ _ (q2.conn.writeAll net).2 _ (q2.log ++ [.sent extensionHandshakeBytes])) = q3 at h4
      refine .inr ⟨m, x, ?_⟩
      cases (q2.conn.writeAll net).1 with
      | false => exact ⟨_, by simpa using h4.log, hx, hxh⟩
      | true =>
        simp only []
        obtain ⟨gots, h5, -⟩ := readyLoop_history net 10 h4
        exact ⟨_, by simpa using h5.log, hx, hxh⟩
    · simp only [hact, Bool.not_false, if_true]
      exact .inl ⟨by simp, .inr ⟨m, by simpa using h2.log⟩⟩

/-- The same for everything that follows. -/
theorem stranger_hears (net : Net) (hash peerId : Bytes) (hh : hash.length = 20) (hid : peerId.length = 20) {log : List Ev}
    (hlog : (initPeer net (freshPeer hash peerId)).2.log <+: log)
    (hbad : (initPeer net (freshPeer hash peerId)).1 ≠ .ok () → log = (initPeer net (freshPeer hash peerId)).2.log) (h : Stranger hash log) :
    (∃ x, IsHandshake [0, 0, 0, 0, 0, 0x10, 0, 0] hash peerId x ∧ written log = [x]) ∧ (written log).flatten.length = 68 := by
  obtain ⟨hs, int, ext, e, hx, -⟩ := opening_spec hash peerId hh hid
  simp only [List.cons.injEq] at e
  have hw : written log = [hs] := by
    rcases initPeer_greeting net (freshPeer hash peerId) rfl with ⟨h1, h2⟩ | ⟨m, x, rest, h2, h3, h4⟩
    · rw [hbad h1, ← e.1]
      rcases h2 with h2 | ⟨m, h2⟩ <;> rw [h2] <;> rfl
    · obtain ⟨more, rfl⟩ := hlog
      rw [h2] at h
      exact absurd h4 (h m x (by simp) h3)
  refine ⟨⟨hs, hx, hw⟩, ?_⟩
  rw [hw]
  obtain ⟨-, h1, h2, rfl⟩ := hx
  rw [List.flatten_cons, List.flatten_nil, List.append_nil, List.length_append, List.length_append, List.length_append, h1, h2]
  decide +kernel

theorem download_prefix (m : Build) (net : Net) (d : Downloadable) (f : Nat) (p : Peer) : p.log <+: (d.download m net f p).2.log := by
  rcases download_history m net d f p with ⟨cap, new, -, h⟩ | ⟨h, -⟩
  · exact ⟨new, h.log.symm⟩
  · rw [h]; exact List.prefix_refl _

/-- C121: whoever has not greeted us with the info hash of the torrent hears the handshake and nothing else, 68 bytes, when asked for a piece. -/
theorem C121_words (sha : Bytes → Bytes) (hsha : ∀ x, (sha x).length = 20) (m : Build) (net : Net) (f : Nat) (peerId : Bytes) (hid : peerId.length = 20) (info : Info)
    (idx : Nat) (h : Stranger (info.computeInfoHash sha) (downloadRun sha m net f peerId info idx).2.log) :
    (∃ x, IsHandshake [0, 0, 0, 0, 0, 0x10, 0, 0] (info.computeInfoHash sha) peerId x ∧ written (downloadRun sha m net f peerId info idx).2.log = [x]) ∧
    (written (downloadRun sha m net f peerId info idx).2.log).flatten.length = 68 := by
  refine stranger_hears net (info.computeInfoHash sha) peerId (hsha _) hid ?_ ?_ h
  · unfold downloadRun freshPeer
    generalize initPeer net (Peer.new ⟨[], 0⟩ (info.computeInfoHash sha) peerId) = r
    obtain ⟨r1, p⟩ := r
    cases r1 with
    | ok u =>
      simp only []
      cases (info.getTotalLength m : Res PeerManagerError Nat) with
      | ok total =>
        have := download_prefix m net (.block info.pieceLength idx total) f p
        simp only []
        generalize (Downloadable.block info.pieceLength idx total).download m net f p = q at this ⊢
        obtain ⟨q1, q2⟩ := q
        cases q1 <;> exact this
      | _ => exact List.prefix_refl _
    | _ => exact List.prefix_refl _
  · unfold downloadRun freshPeer
    generalize initPeer net (Peer.new ⟨[], 0⟩ (info.computeInfoHash sha) peerId) = r
    obtain ⟨r1, p⟩ := r
    intro hr
    cases r1 with
    | ok u => exact absurd rfl hr
    | _ => rfl

/-- C121: the same when asked for the metadata. -/
theorem C121_words_metadata (m : Build) (net : Net) (f : Nat) (peerId hash : Bytes) (hid : peerId.length = 20) (hh : hash.length = 20)
    (h : Stranger hash (getInfoRun m net f peerId hash).2.log) :
    (∃ x, IsHandshake [0, 0, 0, 0, 0, 0x10, 0, 0] hash peerId x ∧ written (getInfoRun m net f peerId hash).2.log = [x]) ∧
    (written (getInfoRun m net f peerId hash).2.log).flatten.length = 68 := by
  refine stranger_hears net hash peerId hh hid ?_ ?_ h
  · unfold getInfoRun freshPeer
    generalize initPeer net (Peer.new ⟨[], 0⟩ hash peerId) = r
    obtain ⟨r1, p⟩ := r
    cases r1 with
    | ok u =>
      have := download_prefix m net .info f p
      simp only []
      generalize Downloadable.info.download m net f p = q at this ⊢
      obtain ⟨q1, q2⟩ := q
      cases q1 <;> exact this
    | _ => exact List.prefix_refl _
  · unfold getInfoRun freshPeer
    generalize initPeer net (Peer.new ⟨[], 0⟩ hash peerId) = r
    obtain ⟨r1, p⟩ := r
    intro hr
    cases r1 with
    | ok u => exact absurd rfl hr
    | _ => rfl

/-- A web server is a stranger: it hears the handshake. -/
example : Stranger (List.replicate 20 7) (getInfoRun .release (script [b!"HTTP/1.1 400 Bad Request"]) 5 (List.replicate 20 1) (List.replicate 20 7)).2.log ∧
    (written (getInfoRun .release (script [b!"HTTP/1.1 400 Bad Request"]) 5 (List.replicate 20 1) (List.replicate 20 7)).2.log).flatten.length = 68 := by
  have e : (getInfoRun .release (script [b!"HTTP/1.1 400 Bad Request"]) 5 (List.replicate 20 1) (List.replicate 20 7)).2.log =
      [.sent (newHandshake (List.replicate 20 7) (List.replicate 20 1)).asBytes] := by decide +kernel
  have h : Stranger (List.replicate 20 7) (getInfoRun .release (script [b!"HTTP/1.1 400 Bad Request"]) 5 (List.replicate 20 1) (List.replicate 20 7)).2.log := by
    rw [e]
    intro m x hm
    simp at hm
  exact ⟨h, (C121_words_metadata _ _ _ _ _ rfl rfl h).2⟩

/-! ### How often an address is tried -/

/-- No more failures than `K` for each time the peer was named. -/
def Owes (K : Nat) (e : Bytes) (log : List Mail) : Prop :=
  (failuresSince e log = none → failures e log = 0) ∧ ∀ m, failuresSince e log = some m → failures e log + K ≤ K * timesNamed e log + m

theorem timesNamed_append (e : Bytes) (a b : List Mail) : timesNamed e (a ++ b) = timesNamed e a + timesNamed e b := List.countP_append

theorem owes_snoc {K : Nat} {e : Bytes} {log : List Mail} {x : Mail} (h : Owes K e log) (hK : ∀ m, failuresSince e log = some m → m ≤ K)
    (hx : ∀ i, x = .failed e i → failuresSince e log ≠ none) : Owes K e (log ++ [x]) := by
  have other : (∀ p, x ≠ .found p) → Owes K e (log ++ [x]) := by
    intro hn
    have ht : timesNamed e [x] = 0 := by cases x <;> first | rfl | exact absurd rfl (hn _)
    refine ⟨fun h0 => ?_, fun m hm => ?_⟩
    · rw [failuresSince_other e log x hn, Option.map_eq_none_iff] at h0
      rw [failures_append, h.1 h0, Nat.zero_add]
      cases x with
      | found p => rfl
      | success => rfl
      | failed e' i =>
        by_cases he : e' = e
        · subst he; exact absurd h0 (hx i rfl)
        · simp [failures, he]
    · rw [failuresSince_other e log x hn, Option.map_eq_some_iff] at hm
      obtain ⟨m', h1, rfl⟩ := hm
      have := h.2 m' h1
      rw [failures_append, timesNamed_append, ht, Nat.add_zero]
      omega
  cases x with
  | success => exact other (fun p e => by cases e)
  | failed => exact other (fun p e => by cases e)
  | found p =>
    have hf : failures e [.found p] = 0 := rfl
    refine ⟨fun h0 => ?_, fun m hm => ?_⟩
    · rw [failuresSince_found] at h0
      split at h0
      · cases h0
      · rw [failures_append, h.1 h0]
        rfl
    · rw [failuresSince_found] at hm
      rw [failures_append, timesNamed_append, hf]
      split at hm
      · rename_i hp
        cases hm
        have ht : timesNamed e [.found p] = 1 := by simp [timesNamed, hp]
        rw [ht, Nat.mul_add]
        cases hs : failuresSince e log with
        | none => have := h.1 hs; omega
        | some m => have := h.2 m hs; have := hK m hs; omega
      · rename_i hp
        have ht : timesNamed e [.found p] = 0 := by simp [timesNamed, hp]
        have := h.2 m hm
        rw [ht, Nat.add_zero]
        omega

theorem handled_one {w : World} {s t : Sys} (h : Step w s t) : t.handled = s.handled ∨ ∃ m rest, s.mail = m :: rest ∧ t.handled = s.handled ++ [m] := by
  cases h <;> first | exact .inl rfl | exact .inr ⟨_, _, ‹_›, rfl⟩

theorem handled_one_move {w : World} {s t : Slot} (h : Move w s t) :
    t.sys.handled = s.sys.handled ∨ ∃ m rest, s.sys.mail = m :: rest ∧ t.sys.handled = s.sys.handled ++ [m] := by
  cases h with
  | still hp fs e => rw [e]; exact .inl rfl
  | act hp fs hst hw => exact handled_one (s := { s.sys with fs }) hst
  | told hp fs p e => rw [e]; exact .inl rfl
  | begin ws hp e => rw [e]; exact .inl rfl
  | part x xs hp e => rw [e]; exact .inl rfl
  | done r ready up hr e => rw [e]; exact .inl rfl

/-- C121: as long as there is a peer that has not failed twice whenever somebody is asked, no address is tried in vain more than six times for each time it has been
named, whoever is there. Missing: runs without such a peer (refuted below). -/
theorem C121_tried_partial {w : World} {Q : Info → Prop} {fs : FS} {n : Nat} {run : Nat → App} (h : Run w Q fs n run) {k : Nat} {s : Slot}
    (hk : (run 0).proc.slots[k]? = some s) (hi : s.sys.torrent.initiated = false)
    (hg : ∀ i t, (run i).proc.slots[k]? = some t → asked t.sys ≠ [] → GoodPeer t.sys.handled) {i : Nat} {t : Slot} (ht : (run i).proc.slots[k]? = some t) (e : Bytes) :
    failures e t.sys.handled ≤ 6 * timesNamed e t.sys.handled := by
  obtain ⟨f, f0, fk, fm⟩ := run_slots h hk
  have six : ∀ i m, failuresSince e (f i).sys.handled = some m → m ≤ 6 := fun i m hm => (C120_six h hk hi hg (fk i)).1 e m hm
  have owes : ∀ i, Owes 6 e (f i).sys.handled := by
    intro i
    induction i with
    | zero =>
      rw [f0]
      have h0 := (unstarted_failures (C84_among (run_asteps h 0) (List.mem_of_getElem? hk)) hi).1
      have h1 : failures e s.sys.handled = 0 := by have := failures_le_failedIn e s.sys.handled; omega
      refine ⟨fun _ => h1, fun m hm => ?_⟩
      have : 1 ≤ timesNamed e s.sys.handled := by
        obtain ⟨p, hp, hpe⟩ := named_iff.mpr ⟨m, hm⟩
        exact List.countP_pos_iff.mpr ⟨_, hp, by simp [hpe]⟩
      omega
    | succ i ih =>
      rcases handled_one_move (fm i) with e1 | ⟨m, rest, e1, e2⟩
      · rw [e1]; exact ih
      · rw [e2]
        refine owes_snoc ih (six i) fun j hj hnone => ?_
        have hn := (heardOf_among (C84_among (run_asteps h i) (List.mem_of_getElem? (fk i)))).failed e j (by rw [e1, hj]; exact List.mem_cons_self)
        obtain ⟨m', hm'⟩ := named_iff.mp hn
        rw [hnone] at hm'
        cases hm'
  have e' := fk i
  rw [ht] at e'
  rw [Option.some.inj e']
  cases hs : failuresSince e (f i).sys.handled with
  | none => have := (owes i).1 hs; omega
  | some m => have := (owes i).2 m hs; have := six i m hs; omega

/-- C121: at any time no more than five connections for pieces of a torrent go to an address. -/
theorem C121_at_once {w : World} {s : Sys} (h : Among w s) (e : Bytes) : (s.busy.map Request.endpoint).count e ≤ 5 := by
  have h1 := (C41_at_most_five h).1
  have h2 := (s.busy.map Request.endpoint).count_le_length (a := e)
  simp only [flight, List.length_append, List.length_map] at h1 h2
  omega

/-- Who has failed has been named. -/
theorem failed_named {w : World} {s : Sys} (h : Among w s) {e : Bytes} {i : Nat} (he : Mail.failed e i ∈ s.handled) : NamedPeer e s.handled := by
  induction h with
  | init => cases he
  | disk _ _ ih => exact ih he
  | wrote _ _ _ _ _ _ _ ih => exact ih he
  | @step s t hs hst ih =>
    rcases handled_one hst with e1 | ⟨m, rest, e1, e2⟩
    · rw [e1] at he ⊢; exact ih he
    · rw [e2] at he ⊢
      have : NamedPeer e s.handled := by
        rcases List.mem_append.mp he with he | he
        · exact ih he
        · rw [List.mem_singleton] at he
          exact (heardOf_among hs).failed e i (by rw [e1, ← he]; exact List.mem_cons_self)
      obtain ⟨p, hp, hpe⟩ := this
      exact ⟨p, List.mem_append_left _ hp, hpe⟩

/-- C121 refuted: one answer of a tracker that names one address eleven times is enough to make the client try this address for ever, five connections at a time, if nobody
answers there: in every world there is a fair run in which nobody else is named, and the number of failed attempts exceeds every number. -/
theorem C121_refuted (w : World) (hsha : ∀ b, (w.sha b).length = 20) :
    ∃ run, Run w (Beside (threeBytes w.sha)) (cachedFs w.cwd (List.replicate 20 17) (threeBytes w.sha)) 1 run ∧ Fair run 0 ∧ (∀ i, (run i).Free 0) ∧
    (∀ i t, (run i).proc.slots[0]? = some t → t.sys.told = List.replicate 11 peer0) ∧
    ∀ B, ∃ i t, (run i).proc.slots[0]? = some t ∧ B < failures peer0.endpoint t.sys.handled := by
  obtain ⟨A, s, h1, h2, h3, h4, h5, h6, h7, h8, h9, h10, h11, -⟩ := about_to_start_told w (threeBytes_describes hsha) (by decide) (by decide) (threeBytes_typed _)
    (Q := Beside (threeBytes w.sha)) (.inl rfl)
  obtain ⟨run, r1, r2, r3, r4, r5, r6, -⟩ := C120_failing h1 h2 h3 h4 h5 h6 h7 h8 h9 (by simp [wrappedCount, threeBytes])
  have htold : ∀ i t, (run i).proc.slots[0]? = some t → t.sys.told = List.replicate 11 peer0 := fun i t ht => ((r5 i t ht).2.2).trans h11
  refine ⟨run, r1, r3, r4, htold, fun B => ?_⟩
  obtain ⟨i, t, ht, hB⟩ := r6 (B + 5)
  have ha := C84_among (run_asteps r1 i) (List.mem_of_getElem? ht)
  refine ⟨i, t, ht, ?_⟩
  have hall : failedIn t.sys.handled ≤ failures peer0.endpoint t.sys.handled := by
    refine List.countP_mono_left fun m hm hx => ?_
    cases m with
    | found p => cases hx
    | success => cases hx
    | failed e j =>
      obtain ⟨p, hp, hpe⟩ := failed_named ha hm
      have : p ∈ t.sys.told := by
        simp only [Sys.told, List.mem_filterMap]
        exact ⟨_, List.mem_append_left _ hp, rfl⟩
      rw [htold i t ht] at this
      rw [List.eq_of_mem_replicate this] at hpe
      simp [hpe]
  have hfive : failedIn t.sys.mail ≤ 5 := by
    have h5 : (asked t.sys).length ≤ 5 := by rw [asked_length]; exact (C41_at_most_five ha).1
    have : failedIn t.sys.mail ≤ (reporters t.sys.mail).length := by
      generalize t.sys.mail = l
      induction l with
      | nil => exact Nat.le_refl _
      | cons m l ih => cases m <;> simp [failedIn, reporters] at ih ⊢ <;> omega
    simp only [asked, List.length_append] at h5
    omega
  have : downloadsFailed t.sys = failedIn t.sys.handled + failedIn t.sys.mail := failedIn_append _ _
  omega

/-- C121_tried_partial: in every world there is such a run, in which a torrent of three bytes is got. -/
example (w : World) (hsha : ∀ b, (w.sha b).length = 20) : ∃ run s, Run w (Beside (threeBytes w.sha)) (cachedFs w.cwd (List.replicate 20 17) (threeBytes w.sha)) 1 run ∧
    Fair run 0 ∧ (run 0).proc.slots[0]? = some s ∧ s.sys.torrent.initiated = false ∧ Starts s.sys ∧
    (∀ i t, (run i).proc.slots[0]? = some t → asked t.sys ≠ [] → GoodPeer t.sys.handled) := by
  obtain ⟨A, s, h1, h2, h3, h4, h5, h6, h7, h8, h9, h10, -, h12⟩ := about_to_start_told w (threeBytes_describes hsha) (by decide) (by decide) (threeBytes_typed _)
    (Q := Beside (threeBytes w.sha)) (.inl rfl)
  obtain ⟨run, r1, r2, r3, r4, r5⟩ := C111_served_runs hsha (threeBytes_describes hsha)
    ⟨by decide, by show pieceCount 3 2 ≤ 2 ^ 32; decide, by show 2 * pieceCount 3 2 < 2 ^ 64; decide⟩ h1 h2 h3 h4 h5
  exact ⟨run, s, r1, r3, by rw [r2]; exact h4, h12, h6,
    fun i t ht => good_of_none (C84_among (run_asteps r1 i) (List.mem_of_getElem? ht)) ((r5 i t ht).1.trans h10)⟩

/-- C121_tried_partial in numbers: six failures of a peer that was named once, of a peer that was named twice twelve. -/
example : failures peer0.endpoint ([.found peer0] ++ (List.range 6).map (Mail.failed peer0.endpoint)) = 6 * timesNamed peer0.endpoint ([.found peer0] ++ (List.range 6).map (Mail.failed peer0.endpoint)) ∧
    timesNamed peer0.endpoint [.found peer0, .failed peer0.endpoint 0, .found peer1, .found peer0] = 2 := by decide +kernel

end RustBit
