/-
C124: who is told more than the handshake.
-/
import Verif.Spec.Echo
import Verif.Props.Strangers
import Verif.Props.Crash
import Verif.Proofs.Attempt

namespace RustBit
open Spec

/-! ### Somebody who does not listen -/

/-- The first message does not depend on what has been said. -/
theorem first_message (net : Net) (hash id hash' id' : Bytes) :
    ((freshPeer hash id).sendMessage net (newHandshake hash id)).conn = ((freshPeer hash' id').sendMessage net (newHandshake hash' id')).conn := rfl

/-- Who is told more has sent a handshake with the info hash. -/
theorem initPeer_told {net : Net} {hash id : Bytes} (h : ToldMore (initPeer net (freshPeer hash id)).2.log) :
    ∃ m x c, ((freshPeer hash id).sendMessage net (newHandshake hash id)).readMessage (ε := PeerManagerError) net = (.ok (some m), c) ∧
      m.content = .handshake x ∧ x.infoHash = hash := by
  unfold ToldMore at h
  unfold initPeer readAndApply at h
  rw [show (freshPeer hash id).infoHash = hash from rfl, show (freshPeer hash id).id = id from rfl] at h
  generalize hp1 : (freshPeer hash id).sendMessage net (newHandshake hash id) = p1 at h ⊢
  have hl : p1.log = [.sent (newHandshake hash id).asBytes] := by rw [← hp1]; rfl
  have ha : p1.active = false := by rw [← hp1]; rfl
  have hh : p1.infoHash = hash := by rw [← hp1]; rfl
  have hr : ∃ c, (p1.readMessage (ε := PeerManagerError) net).2 = { p1 with conn := c } := by
    unfold Peer.readMessage
    split
    · exact ⟨_, rfl⟩
    · split <;> exact ⟨_, rfl⟩
  obtain ⟨c, hc⟩ := hr
  generalize hr : p1.readMessage (ε := PeerManagerError) net = r at hc ⊢
  obtain ⟨r1, q⟩ := r
  simp only at hc
  simp only [hr] at h
  have hq : (written q.log).length = 1 := by rw [hc]; simp only [hl]; rfl
  cases r1 with
  | err e => simp only at h; omega
  | panic => simp only at h; omega
  | hang => simp only at h; omega
  | ok o =>
    cases o with
    | none =>
      simp only at h
      rw [show q.active = false by rw [hc]; exact ha] at h
      simp only [Bool.not_false, if_true] at h
      omega
    | some m =>
      simp only at h
      by_cases hact : (q.applyMessage m).active = true
      · have e : q.active = false := by rw [hc]; exact ha
        have e' : q.infoHash = hash := by rw [hc]; exact hh
        refine ⟨m, ?_⟩
        have hm : ∃ x, m.content = .handshake x ∧ x.infoHash = hash := by
          revert hact
          simp only [Peer.applyMessage, Peer.applyState, Peer.applyContent]
          split
          · simp [e]
          · split
            · simp [e]
            · split
              · split
                · simp [e]
                · split <;> simp [e]
                · rename_i x hx
                  intro hh
                  simp only [decide_eq_true_eq] at hh
                  exact ⟨x, hx, by rw [← hh, e']⟩
                · simp [e]
              · simp [e]
        obtain ⟨x, hx, hxh⟩ := hm
        exact ⟨x, q, rfl, hx, hxh⟩
      · simp only [hact, Bool.not_false, if_true] at h
        have : (written (q.applyMessage m).log).length = 1 := by
          show (written (q.log ++ [.got m])).length = 1
          simpa [written, List.filterMap_append] using hq
        omega

/-- Somebody who does not listen is taken for a peer of one torrent at most. -/
theorem initPeer_blind {net : Net} {hash id hash' id' : Bytes} (h : ToldMore (initPeer net (freshPeer hash id)).2.log)
    (h' : ToldMore (initPeer net (freshPeer hash' id')).2.log) : hash = hash' := by
  obtain ⟨m, x, c, h1, h2, h3⟩ := initPeer_told h
  obtain ⟨m', x', c', h1', h2', h3'⟩ := initPeer_told h'
  have : m = m' := by
    unfold Peer.readMessage at h1 h1'
    rw [first_message net hash id hash' id'] at h1
    split at h1
    · simp at h1
    · rename_i body i len c0 hrs
      rw [hrs] at h1'
      simp only at h1'
      split at h1 <;> rename_i hn
      · rw [hn] at h1'
        simp only [Prod.mk.injEq, Res.ok.injEq, Option.some.injEq] at h1 h1'
        rw [← h1.1, ← h1'.1]
      · simp at h1
      · simp at h1
      · simp at h1
  subst this
  rw [h2] at h2'
  cases h2'
  rw [← h3, h3']

/-- An attempt to get the metadata tells more only to those to whom opening does. -/
theorem getInfo_told {m : Build} {net : Net} {f : Nat} {id hash : Bytes} (h : ToldMore (getInfoRun m net f id hash).2.log) :
    ToldMore (initPeer net (freshPeer hash id)).2.log := by
  by_cases hok : (initPeer net (freshPeer hash id)).1 = .ok ()
  · cases hi : initPeer net (freshPeer hash id) with
    | mk r p =>
      rw [hi] at hok
      simp only at hok
      subst hok
      obtain ⟨-, -, -, m, x, gots, hl, -⟩ := C31_ready net hash id p hi
      unfold ToldMore
      rw [hl]
      simp [written]
  · unfold getInfoRun at h
    change ToldMore (match initPeer net (freshPeer hash id) with | (.ok (), p) => _ | (.err e, p) => _ | (.panic, p) => _ | (.hang, p) => _ : Res PeerManagerError Info × Peer).2.log at h
    generalize initPeer net (freshPeer hash id) = r at h hok ⊢
    obtain ⟨r1, p⟩ := r
    cases r1 with
    | ok u => exact absurd rfl hok
    | err e => exact h
    | panic => exact h
    | hang => exact h

theorem download_told {sha : Bytes → Bytes} {m : Build} {net : Net} {f : Nat} {id : Bytes} {info : Info} {idx : Nat}
    (h : ToldMore (downloadRun sha m net f id info idx).2.log) : ToldMore (initPeer net (freshPeer (info.computeInfoHash sha) id)).2.log := by
  by_cases hok : (initPeer net (freshPeer (info.computeInfoHash sha) id)).1 = .ok ()
  · cases hi : initPeer net (freshPeer (info.computeInfoHash sha) id) with
    | mk r p =>
      rw [hi] at hok
      simp only at hok
      subst hok
      obtain ⟨-, -, -, m, x, gots, hl, -⟩ := C31_ready net _ id p hi
      unfold ToldMore
      rw [hl]
      simp [written]
  · unfold downloadRun at h
    change ToldMore (match initPeer net (freshPeer (info.computeInfoHash sha) id) with
      | (.ok (), p) => _ | (.err e, p) => _ | (.panic, p) => _ | (.hang, p) => _ : Res PeerManagerError Bytes × Peer).2.log at h
    generalize initPeer net (freshPeer (info.computeInfoHash sha) id) = r at h hok ⊢
    obtain ⟨r1, p⟩ := r
    cases r1 with
    | ok u => exact absurd rfl hok
    | err e => exact h
    | panic => exact h
    | hang => exact h

/-- C124, for whoever does not listen (a fixed schedule): there is one info hash at most for which they are told more than the handshake, whatever they send.
Missing: whoever listens, see `C124_refuted_echo`. -/
theorem C124_blind_partial {net : Net} {m m' : Build} {f f' : Nat} {id id' hash hash' : Bytes} (h : ToldMore (getInfoRun m net f id hash).2.log)
    (h' : ToldMore (getInfoRun m' net f' id' hash').2.log) : hash = hash' :=
  initPeer_blind (getInfo_told h) (getInfo_told h')

/-- C124 for attempts to download a piece. -/
theorem C124_blind_piece_partial {net : Net} {sha : Bytes → Bytes} {m m' : Build} {f f' : Nat} {id id' : Bytes} {info info' : Info} {idx idx' : Nat}
    (h : ToldMore (downloadRun sha m net f id info idx).2.log) (h' : ToldMore (downloadRun sha m' net f' id' info' idx').2.log) :
    info.computeInfoHash sha = info'.computeInfoHash sha :=
  initPeer_blind (download_told h) (download_told h')

/-- Who is told more, exactly. -/
theorem initPeer_told_iff (net : Net) (hash id : Bytes) :
    ToldMore (initPeer net (freshPeer hash id)).2.log ↔ ∃ ms c, Polls net (afterWrite net ⟨[], 0⟩) 1 ms c ∧ Presents hash ms := by
  have e0 : initPeer net (freshPeer hash id) = match readAndApply net (hailed net hash id) with
      | (.ok (), p) =>
        if !p.active then (.err .handshake, p)
        else
          match (p.sendMessage net newInterested).sendMetadataHandshakeRequest net with
          | (false, p) => (.err .handshakeMetadata, p)
          | (true, p) => readyLoop net 10 p
      | (.err e, p) => (.err e, p)
      | (.panic, p) => (.panic, p)
      | (.hang, p) => (.hang, p) := rfl
  rw [e0]
  rcases readAndApply_reads net (hailed net hash id) with ⟨ms, c, hp, hms, hw, e⟩ | ⟨hno, hbad⟩
  · rw [e]
    have ht := takes_tracks (hailed_tracks (net := net) (hash := hash) (id := id)) c ms hw
    have hone : (written (takes (hailed net hash id) ms c).log).length = 1 := by
      rw [ht.log]
      rcases hms with rfl | ⟨m, rfl⟩ <;> rfl
    by_cases hP : Presents hash ms
    · refine ⟨fun _ => ⟨ms, c, hp, hP⟩, fun _ => ?_⟩
      simp only [(active_presents hms hw).mpr hP, Bool.not_true, Bool.false_eq_true, if_false]
      generalize takes (hailed net hash id) ms c = q at hone
      have e4 : (q.sendMessage net newInterested).sendMetadataHandshakeRequest net = (((q.sendMessage net newInterested).conn.writeAll net).1,
          { (q.sendMessage net newInterested) with
            conn := ((q.sendMessage net newInterested).conn.writeAll net).2
            log := q.log ++ [.sent newInterested.asBytes] ++ [.sent extensionHandshakeBytes] }) := rfl
      rw [e4]
      have hlen : ∀ l : List Ev, 1 < (written (q.log ++ [.sent newInterested.asBytes] ++ [.sent extensionHandshakeBytes] ++ l)).length := by
        intro l
        simp only [written, List.filterMap_append, List.length_append] at hone ⊢
        simp
        omega
      cases ((q.sendMessage net newInterested).conn.writeAll net).1 with
      | false =>
        have := hlen []
        rw [List.append_nil] at this
        exact this
      | true =>
        simp only []
        generalize hq3 : ({ (q.sendMessage net newInterested) with
            conn := ((q.sendMessage net newInterested).conn.writeAll net).2
            log := q.log ++ [.sent newInterested.asBytes] ++ [.sent extensionHandshakeBytes] } : Peer) = q3
        obtain ⟨gots, h5, -⟩ := readyLoop_history net 10 (tracks_refl q3)
        unfold ToldMore
        rw [h5.log, ← hq3]
        exact hlen _
    · have hact : (takes (hailed net hash id) ms c).active = false := by
        cases h : (takes (hailed net hash id) ms c).active with
        | false => rfl
        | true => exact absurd ((active_presents hms hw).mp h) hP
      simp only [hact, Bool.not_false, if_true]
      constructor
      · intro h; unfold ToldMore at h; omega
      · rintro ⟨ms', c', h1, h2⟩
        rw [← hailed_conn (hash := hash) (id := id)] at h1
        rw [(reads_det hp h1).1] at hP
        exact absurd h2 hP
  · constructor
    · intro h
      obtain ⟨c, hc⟩ := readAndApply_cases net (hailed net hash id)
      rcases hc with hc | hc | hc | ⟨m, -, hc⟩
      · rw [hc] at hbad; simp at hbad
      · rw [hc] at h; simp [ToldMore, hailed, Peer.sendMessage, Peer.write, written, Peer.new] at h
      · rw [hc] at h; simp [ToldMore, hailed, Peer.sendMessage, Peer.write, written, Peer.new] at h
      · rw [hc] at hbad; simp at hbad
    · rintro ⟨ms', c', h1, -⟩
      exact absurd ⟨1, ms', c', by omega, h1⟩ hno

/-- What follows is told nobody who has not been told more before. -/
theorem told_more_prefix {a b : List Ev} (h : a <+: b) (ha : ToldMore a) : ToldMore b := by
  obtain ⟨t, rfl⟩ := h
  unfold ToldMore at ha ⊢
  simp only [written, List.filterMap_append, List.length_append] at ha ⊢
  omega

/-- C124, exactly: in attempts to get the metadata, and to get a piece, somebody is told more than the handshake just if their first message is a handshake with the
info hash of the torrent. -/
theorem C124_exact (net : Net) (id : Bytes) :
    (∀ m f hash, ToldMore (getInfoRun m net f id hash).2.log ↔ ∃ ms c, Polls net (afterWrite net ⟨[], 0⟩) 1 ms c ∧ Presents hash ms) ∧
    ∀ sha m f info idx, ToldMore (downloadRun sha m net f id info idx).2.log ↔
      ∃ ms c, Polls net (afterWrite net ⟨[], 0⟩) 1 ms c ∧ Presents (info.computeInfoHash sha) ms := by
  constructor
  · intro m f hash
    rw [← initPeer_told_iff net hash id]
    refine ⟨getInfo_told, fun h => ?_⟩
    unfold getInfoRun
    change ToldMore (match initPeer net (freshPeer hash id) with | (.ok (), p) => _ | (.err e, p) => _ | (.panic, p) => _ | (.hang, p) => _ : Res PeerManagerError Info × Peer).2.log
    generalize initPeer net (freshPeer hash id) = r at h ⊢
    obtain ⟨r1, p⟩ := r
    cases r1 with
    | ok u =>
      have := told_more_prefix (download_prefix m net .info f p) h
      simp only []
      generalize Downloadable.info.download m net f p = d at this
      obtain ⟨d1, q⟩ := d
      cases d1 <;> exact this
    | err e => exact h
    | panic => exact h
    | hang => exact h
  · intro sha m f info idx
    rw [← initPeer_told_iff net _ id]
    refine ⟨download_told, fun h => ?_⟩
    unfold downloadRun
    change ToldMore (match initPeer net (freshPeer (info.computeInfoHash sha) id) with
      | (.ok (), p) => _ | (.err e, p) => _ | (.panic, p) => _ | (.hang, p) => _ : Res PeerManagerError Bytes × Peer).2.log
    generalize initPeer net (freshPeer (info.computeInfoHash sha) id) = r at h ⊢
    obtain ⟨r1, p⟩ := r
    cases r1 with
    | ok u =>
      simp only []
      cases (info.getTotalLength m : Res PeerManagerError Nat) with
      | ok total =>
        have := told_more_prefix (download_prefix m net (.block info.pieceLength idx total) f p) h
        simp only []
        generalize (Downloadable.block info.pieceLength idx total).download m net f p = d at this
        obtain ⟨d1, q⟩ := d
        cases d1 <;> exact this
      | err e => exact h
      | panic => exact h
      | hang => exact h
    | err e => exact h
    | panic => exact h
    | hang => exact h

/-! ### Somebody who says what they are told -/

/-- Whatever is written comes back during the same call. -/
def echoNet (hash id : Bytes) : Net := script [(newHandshake hash id).asBytes, [], [], [], [], newInterested.asBytes, extensionHandshakeBytes]

/-- The announcement of the metadata that the client makes, as read by itself. -/
def ownAnnouncement : Message := ⟨20, 59, .extension ⟨0, none, some 28282, [(b!"ut_metadata", 1), (b!"ut_pex", 2)], none, []⟩⟩

theorem ownAnnouncement_read : (Message.newRaw (extensionHandshakeBytes.drop 5) 59 20 : Res Bytes Message) = .ok ownAnnouncement := by decide +kernel

theorem echoNet_later (hash id : Bytes) {t : Nat} (h : 7 ≤ t) : echoNet hash id t = ⟨[], .up⟩ := by
  unfold echoNet script
  rw [List.getD_eq_getElem?_getD, List.getElem?_eq_none (by simpa using h)]
  rfl

theorem echoNet_up (hash id : Bytes) (t : Nat) : (echoNet hash id t).kind ≠ .fail := by simp [echoNet, script]

theorem readyLoop_silence {net : Net} (hf : ∀ t, (net t).kind ≠ .fail) : ∀ (k : Nat) (q : Peer) (t : Nat), q.conn = ⟨[], t⟩ → (∀ i, t ≤ i → (net i).arrive = []) →
    q.isReady = false → readyLoop net k q = (.err .peerNotReady, { q with conn := ⟨[], t + 2 * k⟩ })
  | 0, q, t, hc, _, _ => by rw [readyLoop, Nat.mul_zero, Nat.add_zero, ← hc]
  | k + 1, q, t, hc, hq, hr => by
    have h1 : readStream net q.conn = (none, ⟨[], t + 2⟩) := by
      rw [hc, readStream_nothing (by rw [arrivals_none hq 2]; rfl) (fun i _ => hf _)]
    rw [readyLoop, readAndApply, Peer.readMessage, h1]
    simp only []
    rw [if_neg (by rw [show ({ q with conn := ⟨[], t + 2⟩ } : Peer).isReady = q.isReady from rfl, hr]; simp),
      readyLoop_silence hf k { q with conn := ⟨[], t + 2⟩ } (t + 2) rfl (fun i hi => hq i (by omega)) hr]
    rw [show t + 2 + 2 * k = t + 2 * (k + 1) by omega]

/-- After the right handshake, exactly. -/
theorem initPeer_greeted_log {net : Net} {flags hash hisId hs rest : Bytes} (hh : IsHandshake flags hash hisId hs) (ha : arrivals net 0 3 = hs ++ rest)
    (hf : ∀ t, (net t).kind ≠ .fail) (id : Bytes) :
    ∃ x : HandshakeMessage, x.infoHash = hash ∧ x.peerId = hisId ∧ initPeer net (Peer.new ⟨[], 0⟩ hash id) = readyLoop net 10
      { (Peer.new ⟨rest ++ arrivals net 3 4, 7⟩ hash id) with
        active := true
        log := [.sent (newHandshake hash id).asBytes, .got ⟨19, 68, .handshake x⟩, .sent newInterested.asBytes, .sent extensionHandshakeBytes] } := by
  obtain ⟨m, hm, hmh, hmi⟩ := C23_hash_position (ε := Bytes) flags hash hisId hs hh
  have e1 : readAndApply net ((Peer.new ⟨[], 0⟩ hash id).sendMessage net (newHandshake hash id)) =
      (.ok (), ({ (Peer.new ⟨[], 0⟩ hash id) with
        conn := ⟨rest ++ arrivals net 3 2, 5⟩
        log := [.sent (newHandshake hash id).asBytes] } : Peer).applyMessage ⟨19, 68, .handshake m⟩) := by
    have hr := readStream_handshake_arriving (net := net) (c := ⟨(net 0).arrive, 1⟩) (rest := rest) hh
      (by rw [← ha]; simp [arrivals]) (fun i _ => hf _)
    have hc : ((Peer.new ⟨[], 0⟩ hash id).sendMessage net (newHandshake hash id)).conn = ⟨(net 0).arrive, 1⟩ := by
      simp [Peer.sendMessage, Peer.write, Peer.new, Conn.writeAll, Conn.advance]
    unfold readAndApply Peer.readMessage
    rw [hc, hr]
    have hn : Message.newRaw hs 68 19 = .ok ⟨19, 68, .handshake m⟩ := by
      unfold Message.newRaw Message.contentOf
      rw [if_neg (by decide), if_neg (by decide), if_neg (by decide), if_neg (by decide), if_pos rfl, hm]
      rfl
    simp only [hn]
    rfl
  refine ⟨m, hmh, hmi, ?_⟩
  have e0 : ({ (Peer.new ⟨[], 0⟩ hash id) with
        conn := ⟨rest ++ arrivals net 3 2, 5⟩
        log := [.sent (newHandshake hash id).asBytes] } : Peer).applyMessage ⟨19, 68, .handshake m⟩ =
      { (Peer.new ⟨rest ++ arrivals net 3 2, 5⟩ hash id) with
        active := true
        log := [.sent (newHandshake hash id).asBytes, .got ⟨19, 68, .handshake m⟩] } := by
    simp [Peer.applyMessage, Peer.applyState, Peer.applyContent, Peer.new, hmh]
  unfold initPeer
  simp only []
  rw [show (Peer.new ⟨[], 0⟩ hash id).infoHash = hash from rfl, show (Peer.new ⟨[], 0⟩ hash id).id = id from rfl, e1, e0]
  simp [Peer.sendMessage, Peer.sendMetadataHandshakeRequest, Peer.write, Conn.writeAll, hf, Conn.advance, Peer.new, arrivals]

/-- C124 refuted: somebody who sends back what they are sent, and does nothing else, is taken for a peer of every torrent. They are told everything that is said
before blocks are asked for, the peer id they greet with is the client's own, and the size of the metadata is taken to be what the client itself has made up. -/
theorem C124_refuted_echo {hash id : Bytes} (hh : hash.length = 20) (hid : id.length = 20) :
    ∃ (net : Net) (p : Peer), initPeer net (Peer.new ⟨[], 0⟩ hash id) = (.err .peerNotReady, p) ∧ (∀ t, p.conn.t ≤ t → Echoed net t p.log) ∧
      ToldMore p.log ∧ p.active = true ∧ p.metadataSize = 28282 ∧
      (∃ (m : Message) (x : HandshakeMessage), Ev.got m ∈ p.log ∧ m.content = .handshake x ∧ x.infoHash = hash ∧ x.peerId = id) ∧
      (∀ m f, getInfo m (.connected net) f id hash = .err .peerNotReady) ∧
      ∀ (sha : Bytes → Bytes) m f info idx, info.computeInfoHash sha = hash → downloadPiece sha m (.connected net) f id info idx = .err .peerNotReady := by
  obtain ⟨hs, int, ext, e, hx, -⟩ := opening_spec hash id hh hid
  simp only [List.cons.injEq] at e
  obtain ⟨x, x1, x2, x3⟩ := initPeer_greeted_log (net := echoNet hash id) (rest := []) hx
    (by rw [← e.1]; simp [arrivals, echoNet, script]) (echoNet_up hash id) id
  have hq : ∀ i, 7 ≤ i → (echoNet hash id i).arrive = [] := fun i hi => by rw [echoNet_later hash id hi]
  have ha : arrivals (echoNet hash id) 3 4 = newInterested.asBytes ++ extensionHandshakeBytes := by simp [arrivals, echoNet, script]
  rw [List.nil_append, ha] at x3
  generalize hnet : echoNet hash id = net at x3 hq
  have hf : ∀ t, (net t).kind ≠ .fail := by rw [← hnet]; exact echoNet_up hash id
  have r1 : readStream net ⟨newInterested.asBytes ++ extensionHandshakeBytes, 7⟩ = (some ([], 2, 0), ⟨extensionHandshakeBytes, 14⟩) := by
    rw [readStream_frame (frame := newInterested.asBytes) (rest := extensionHandshakeBytes) (id := 2) (body := []) ⟨[0, 0, 0, 1], ⟨rfl, by decide⟩, by decide⟩ (by decide) rfl
      (fun i _ => hf _), arrivals_none (t := 7) hq 7, List.append_nil]
    rfl
  have r2 : readStream net ⟨extensionHandshakeBytes, 14⟩ = (some (extensionHandshakeBytes.drop 5, 20, 59), ⟨[], 21⟩) := by
    rw [readStream_frame (frame := extensionHandshakeBytes) (rest := []) (id := 20) (body := extensionHandshakeBytes.drop 5)
      ⟨[0, 0, 0, 60], ⟨rfl, by decide⟩, by decide⟩ (by decide) (by simp) (fun i _ => hf _), arrivals_none (t := 14) (fun i hi => hq i (by omega)) 7]
    rfl
  have n1 : (Message.newRaw [] 0 2 : Res Bytes Message) = .ok ⟨2, 0, .interested⟩ := rfl
  have hres : initPeer net (Peer.new ⟨[], 0⟩ hash id) = (.err .peerNotReady,
      { (Peer.new ⟨[], 37⟩ hash id) with
        active := true, metadataSize := 28282, extensions := [(b!"ut_metadata", 1), (b!"ut_pex", 2)]
        log := [.sent (newHandshake hash id).asBytes, .got ⟨19, 68, .handshake x⟩, .sent newInterested.asBytes, .sent extensionHandshakeBytes,
          .got ⟨2, 0, .interested⟩, .got ownAnnouncement] }) := by
    rw [x3, readyLoop, readAndApply, Peer.readMessage]
    simp only [Peer.new, r1, n1]
    rw [if_neg (by simp [Peer.isReady, Peer.applyMessage, Peer.applyState, Peer.applyContent]), readyLoop, readAndApply, Peer.readMessage]
    simp only [applyMessage_conn, r2, ownAnnouncement_read]
    rw [if_neg (by simp [Peer.isReady, Peer.applyMessage, Peer.applyState, Peer.applyContent, ownAnnouncement, ExtensionMessage.isHandshake]),
      readyLoop_silence hf 8 _ 21 (by rw [applyMessage_conn]) (fun i hi => hq i (by omega))
        (by simp [Peer.isReady, Peer.applyMessage, Peer.applyState, Peer.applyContent, ownAnnouncement, ExtensionMessage.isHandshake])]
    simp [Peer.applyMessage, Peer.applyState, Peer.applyContent, ownAnnouncement, ExtensionMessage.isHandshake]
  refine ⟨net, _, hres, fun t ht => ?_, by simp [ToldMore, written], rfl, rfl, ⟨_, x, by simp; exact .inl rfl, rfl, x1, x2⟩, fun m f => ?_, fun sha m f info idx he => ?_⟩
  · have ht : 37 ≤ t := ht
    obtain ⟨k, rfl⟩ : ∃ k, t = 7 + k := ⟨t - 7, by omega⟩
    unfold Echoed
    rw [arrivals_add, Nat.zero_add, arrivals_none (t := 7) hq k, ← hnet]
    simp [arrivals, echoNet, script, written]
  · unfold getInfo getInfoRun
    simp only [hres]
  · unfold downloadPiece downloadRun
    simp only [he, hres]

/-- Non-vacuity of `C124_blind_partial` and `C124_blind_piece_partial`: a schedule on which somebody is told more. -/
example : ToldMore (getInfoRun .debug (script [sampleHandshake (List.replicate 20 1)]) 9 (List.replicate 20 2) (List.replicate 20 1)).2.log ∧
    ToldMore (downloadRun (fun _ => List.replicate 20 1) .debug (script [sampleHandshake (List.replicate 20 1)]) 9 (List.replicate 20 2)
      ⟨none, some 4, b!"a", 16384, List.replicate 20 0⟩ 0).2.log ∧
    ¬ ToldMore (getInfoRun .debug (script [sampleHandshake (List.replicate 20 1)]) 9 (List.replicate 20 2) (List.replicate 20 3)).2.log := by
  refine ⟨?_, ?_, ?_⟩ <;> (unfold ToldMore; decide +kernel)

/-- Both sides of `C124_exact` occur: a schedule that presents the hash, and one that presents another. -/
example : (∃ ms c, Polls (script [sampleHandshake (List.replicate 20 1)]) (afterWrite (script [sampleHandshake (List.replicate 20 1)]) ⟨[], 0⟩) 1 ms c ∧
      Presents (List.replicate 20 1) ms) ∧
    ¬ ∃ ms c, Polls (script [sampleHandshake (List.replicate 20 1)]) (afterWrite (script [sampleHandshake (List.replicate 20 1)]) ⟨[], 0⟩) 1 ms c ∧
      Presents (List.replicate 20 3) ms := by
  constructor
  · exact ((C124_exact _ (List.replicate 20 2)).1 .debug 9 _).mp (by unfold ToldMore; decide +kernel)
  · intro h
    exact absurd (((C124_exact _ (List.replicate 20 2)).1 .debug 9 _).mpr h) (by unfold ToldMore; decide +kernel)

end RustBit
