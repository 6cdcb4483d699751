/-
Downloads from a peer that does what it should: C31 and C35 from the first byte on.
-/
import Verif.Props.Transfer
import Verif.Props.Info
import Verif.Props.Messages
import Verif.Props.Stream
import Verif.Spec.EndToEnd

namespace RustBit
open Spec

/-! ### Opening the connection -/

/-- The message announces metadata of the given size, and the given extensions. -/
def Announces (x : WireMsg) (size : Nat) (exts : List (Bytes × UInt8)) : Prop :=
  ∃ len e, Handled x ⟨20, len, .extension e⟩ ∧ e.metadataSize = some size ∧ e.extensions = exts

theorem contentOf_extension {body : Bytes} {id : UInt8} {e : ExtensionMessage} (h : Message.contentOf body id = .ok (.extension e)) : id = 20 := by
  unfold Message.contentOf at h
  split at h
  · simp at h
  · split at h
    · simp at h
    · split at h
      · cases hr : (RequestMessage.fromBytes body : Res Bytes _) <;> rw [hr] at h <;> simp at h
      · split at h
        · assumption
        · split at h
          · cases hr : (HandshakeMessage.fromBytes body : Res Bytes _) <;> rw [hr] at h <;> simp at h
          · simp at h

/-- What is known of a peer after `j` messages, none of them a choke: `P` holds of all announcements. -/
structure Greeted (ms : Nat → WireMsg) (P : Nat → List (Bytes × UInt8) → Prop) (j : Nat) (p : Peer) : Prop where
  unchoked : (∃ i, i < j ∧ (ms i).1 = 1) → p.choked = false
  announced : (∃ i, i < j ∧ ∃ size exts, Announces (ms i) size exts) → p.metadataSize ≠ 0
  known : p.metadataSize ≠ 0 → P p.metadataSize p.extensions

theorem greeted_conn {ms : Nat → WireMsg} {P : Nat → List (Bytes × UInt8) → Prop} {j : Nat} {p : Peer} (h : Greeted ms P j p) (c : Conn) (l : List Ev) :
    Greeted ms P j { p with conn := c, log := l } := ⟨h.unchoked, h.announced, h.known⟩

theorem greeted_message {ms : Nat → WireMsg} {P : Nat → List (Bytes × UInt8) → Prop} {j : Nat} {p : Peer} (h : Greeted ms P j p) {msg : Message}
    (hx : Handled (ms j) msg) (h0 : (ms j).1 ≠ 0) (hP : ∀ size exts, Announces (ms j) size exts → size ≠ 0 ∧ P size exts) :
    Greeted ms P (j + 1) (p.applyMessage msg) := by
  have hid : msg.id = (ms j).1 := (newRaw_id hx.2).1
  have hck : (p.applyMessage msg).choked = if (ms j).1 = 1 then false else p.choked := by
    simp only [Peer.applyMessage]
    rw [applyState_choked, hid, if_neg h0]
  -- what happens to the announced size and the extensions
  have hann : ((p.applyMessage msg).metadataSize = p.metadataSize ∧ (p.applyMessage msg).extensions = p.extensions ∧
        ¬ ∃ size exts, Announces (ms j) size exts) ∨
      Announces (ms j) (p.applyMessage msg).metadataSize (p.applyMessage msg).extensions := by
    by_cases hA : ∃ size exts, Announces (ms j) size exts
    · right
      obtain ⟨size, exts, len, e, he, hs, hex⟩ := hA
      have : msg = ⟨20, len, .extension e⟩ := by
        have := hx.2.symm.trans he.2
        simpa using this
      refine ⟨len, e, he, ?_, ?_⟩
      · subst this
        simp [Peer.applyMessage, Peer.applyState, Peer.applyContent, ExtensionMessage.isHandshake, hs]
      · subst this
        simp [Peer.applyMessage, Peer.applyState, Peer.applyContent, ExtensionMessage.isHandshake, hs]
    · left
      refine ⟨?_, ?_, hA⟩
      all_goals
        simp only [Peer.applyMessage, Peer.applyState, Peer.applyContent]
        split
        · rfl
        · split
          · rfl
          · split
            · split
              · rfl
              · rename_i e he
                split
                · rename_i hih
                  exfalso
                  apply hA
                  cases hm : e.metadataSize with
                  | none => simp [ExtensionMessage.isHandshake, hm] at hih
                  | some size =>
                    refine ⟨size, e.extensions, msg.length, e, ?_, hm, rfl⟩
                    have h20 : msg.id = 20 := by
                      have h3 := (newRaw_id hx.2).2.2
                      rw [he] at h3
                      rw [hid]
                      exact contentOf_extension h3
                    have : msg = ⟨20, msg.length, .extension e⟩ := by
                      obtain ⟨a, b, c⟩ := msg
                      simp_all
                    rw [← this]
                    exact hx
                · rfl
              · rfl
              · rfl
            · rfl
  refine ⟨?_, ?_, ?_⟩
  · rintro ⟨i, hi, h1⟩
    rw [hck]
    by_cases hj : (ms j).1 = 1
    · rw [if_pos hj]
    · rw [if_neg hj]
      refine h.unchoked ⟨i, ?_, h1⟩
      rcases Nat.lt_or_eq_of_le (Nat.le_of_lt_succ hi) with hlt | rfl
      · exact hlt
      · exact absurd h1 hj
  · rintro ⟨i, hi, h1⟩
    rcases hann with ⟨e1, -, e3⟩ | hA
    · rw [e1]
      refine h.announced ⟨i, ?_, h1⟩
      rcases Nat.lt_or_eq_of_le (Nat.le_of_lt_succ hi) with hlt | rfl
      · exact hlt
      · exact absurd h1 e3
    · exact (hP _ _ hA).1
  · intro hne
    rcases hann with ⟨e1, e2, -⟩ | hA
    · rw [e1] at hne ⊢
      rw [e2]
      exact h.known hne
    · exact (hP _ _ hA).2

/-- Polling until the peer is ready: `K` polls are enough for the messages up to number `r` if that one begins to arrive in time. -/
theorem readyLoop_greets {net : Net} {c : Conn} {ms : Nat → WireMsg} {full : Nat → Nat} {part : Nat → Bytes}
    (hs : Segmented net c ms full part) {P : Nat → List (Bytes × UInt8) → Prop}
    (hmsgs : ∀ j, (ms j).1 ≠ 0 ∧ ∃ msg, Handled (ms j) msg) (hP : ∀ j size exts, Announces (ms j) size exts → size ≠ 0 ∧ P size exts)
    {r a : Nat} (h1 : ∃ i, i < r ∧ (ms i).1 = 1) (h2 : ∃ i, i < r ∧ ∃ size exts, Announces (ms i) size exts) (ha : BegunBy full part r a) (K : Nat) :
    ∀ {k j : Nat} {p : Peer}, Reads net c ms k j p.conn → Greeted ms P j p → j < r → r - j ≤ K → a ≤ k + 2 + 2 * (K - (r - j)) →
    ∃ k' j' p', readyLoop net K p = (.ok (), p') ∧ Reads net c ms k' j' p'.conn ∧ j' ≤ r ∧ p'.choked = false ∧
      p'.metadataSize ≠ 0 ∧ P p'.metadataSize p'.extensions := by
  induction K with
  | zero => intro k j p _ _ h3 h4; omega
  | succ K ih =>
    intro k j p hr hg hj hK hk
    rw [readyLoop]
    by_cases hne : (p.conn.after net 2).buf = []
    · obtain ⟨e1, e2⟩ := poll_nothing hs hr hne
      have hra : readAndApply net p = (.ok (), { p with conn := p.conn.after net 2 }) := by
        unfold readAndApply Peer.readMessage
        rw [e1]
      rw [hra]
      simp only []
      have hg' : Greeted ms P j { p with conn := p.conn.after net 2 } := greeted_conn hg _ _
      by_cases hready : ({ p with conn := p.conn.after net 2 } : Peer).isReady = true
      · rw [if_pos hready]
        simp only [Peer.isReady, Bool.and_eq_true, decide_eq_true_eq, Bool.not_eq_true'] at hready
        exact ⟨_, _, _, rfl, e2, by omega, hready.2, hready.1, hg'.known hready.1⟩
      · rw [if_neg hready]
        -- the next message has not begun to arrive
        have hlt : k + 2 < a := by
          rcases Nat.lt_or_ge (k + 2) a with h | h
          · exact h
          · exfalso
            have hb := hr.after 2
            rw [hne, List.append_nil] at hb
            have hl := congrArg List.length hb
            rcases ha with ha | ⟨ha, hpa⟩
            · have h3 := Nat.le_trans ha (hs.mono h)
              have h4 := streamed_lt ms (show j < full (k + 2) by omega)
              rw [hs.bytes, List.length_append] at hl
              have := wire_length_ge (ms j)
              omega
            · obtain ⟨d, hd⟩ : ∃ d, k + 2 = a + d := ⟨k + 2 - a, by omega⟩
              rw [hd, arrivals_add, ← List.append_assoc, hs.bytes, List.length_append, List.length_append] at hl
              have h5 : 0 < (part a).length := List.length_pos_iff.mpr hpa
              have h6 := (streamed_prefix ms (show j ≤ full a by omega)).length_le
              omega
        exact ih e2 hg' hj (by omega) (by omega)
    · obtain ⟨h0, msg, hx⟩ := hmsgs j
      obtain ⟨n, d', e1, e2, e3⟩ := poll_message hs hr hx.1 hne
      have hra : readAndApply net p = (.ok (), ({ p with conn := d' } : Peer).applyMessage msg) := by
        unfold readAndApply Peer.readMessage
        rw [e1]
        simp only [hx.2]
      rw [hra]
      simp only []
      have hg' := greeted_message (greeted_conn hg d' p.log) hx h0 (hP j)
      have hr' : Reads net c ms (k + n) (j + 1) (({ p with conn := d' } : Peer).applyMessage msg).conn := by
        rw [applyMessage_conn]; exact e2
      generalize ({ p with conn := d' } : Peer).applyMessage msg = q at hg' hr'
      by_cases hready : q.isReady = true
      · rw [if_pos hready]
        simp only [Peer.isReady, Bool.and_eq_true, decide_eq_true_eq, Bool.not_eq_true'] at hready
        exact ⟨_, _, _, rfl, hr', by omega, hready.2, hready.1, hg'.known hready.1⟩
      · rw [if_neg hready]
        have hlt : j + 1 < r := by
          rcases Nat.lt_or_ge (j + 1) r with h | h
          · exact h
          · exfalso
            apply hready
            have h3 : j + 1 = r := by omega
            rw [h3] at hg'
            simp [Peer.isReady, hg'.unchoked h1, hg'.announced h2]
        exact ih hr' hg' hlt (by omega) (by omega)

/-- A handshake that has arrived when the socket is looked at is read. -/
theorem readStream_handshake_arriving {net : Net} {c : Conn} {flags hash peerId hs rest : Bytes} (hh : IsHandshake flags hash peerId hs)
    (h : c.buf ++ arrivals net c.t 2 = hs ++ rest) (hf : NoFailure net c.t 4) :
    readStream net c = (some (hs, 19, 68), ⟨rest ++ arrivals net (c.t + 2) 2, c.t + 4⟩) := by
  obtain ⟨h1, h2, h3, e⟩ := hh
  have hn : ("BitTorrent protocol".toUTF8.toList : Bytes) = b!"BitTorrent protocol" := by decide +kernel
  rw [hn] at e
  have hl : hs.length = 68 := by rw [e]; simp [h1, h2, h3]
  have h13 : hs.head? = some 0x13 := by rw [e]; rfl
  have hne : hs ≠ [] := by intro e; simp [e] at hl
  have hb : c.buf ++ ((net c.t).arrive ++ (net (c.t + 1)).arrive) = hs ++ rest := by simpa [arrivals] using h
  rw [readStream, setReadTimeout_ok (hf 0 (by omega))]
  simp only []
  have e1 : (c.advance net).buf ++ (net (c.advance net).t).arrive = hs ++ rest := by
    simp only [Conn.advance, List.append_assoc]; exact hb
  rw [hasMessages_ok (hf 1 (by omega)) (by rw [e1]; simp [hne])]
  simp only []
  have e2 : ((c.advance net).advance net).buf ++ (net ((c.advance net).advance net).t).arrive = hs ++ (rest ++ (net (c.t + 2)).arrive) := by
    rw [← List.append_assoc, ← e1]; rfl
  rw [peek_ok (hf 2 (by omega)) (by rw [e2]; simp [hne])]
  simp only []
  rw [e2, List.take_left' hl, if_pos ⟨hl, h13⟩]
  have e3 : (((c.advance net).advance net).advance net).buf ++
      (net (((c.advance net).advance net).advance net).t).arrive = hs ++ (rest ++ arrivals net (c.t + 2) 2) := by
    rw [show (((c.advance net).advance net).advance net).buf = hs ++ (rest ++ (net (c.t + 2)).arrive) from e2]
    simp [arrivals, Conn.advance]
  rw [read_ok (hf 3 (by omega)) (by rw [e3]; simp [hne]), e3, List.take_left' hl, List.drop_left' hl]
  simp [padTo_of_length hl, Conn.advance]

/-- C76: a peer that answers with the right handshake in time, and among whose first `r` ≤ 10 messages, none a choke, are an unchoke and an
announcement of the metadata, opens. (Message `r` must begin to arrive `26 - 2 * r` system calls after the third, so that there are
at most `10 - r` empty polls.) At most `r` messages have then been read, and what is known of the metadata is what was announced. -/
theorem C76_opens_partial {net : Net} {hash rest : Bytes} {ms : Nat → WireMsg} {full : Nat → Nat} {part : Nat → Bytes}
    (h : Opening net hash rest ms full part) {P : Nat → List (Bytes × UInt8) → Prop} {r : Nat} (hr : r ≤ 10)
    (hmsgs : ∀ j, (ms j).1 ≠ 0 ∧ ∃ msg, Handled (ms j) msg) (hP : ∀ j size exts, Announces (ms j) size exts → size ≠ 0 ∧ P size exts)
    (h1 : ∃ i, i < r ∧ (ms i).1 = 1) (h2 : ∃ i, i < r ∧ ∃ size exts, Announces (ms i) size exts) (hsoon : BegunBy full part r (26 - 2 * r))
    (peerId : Bytes) : ∃ k j p, initPeer net (Peer.new ⟨[], 0⟩ hash peerId) = (.ok (), p) ∧ Reads net ⟨rest, 3⟩ ms k j p.conn ∧ j ≤ r ∧
      p.choked = false ∧ p.metadataSize ≠ 0 ∧ P p.metadataSize p.extensions := by
  obtain ⟨flags, hisId, hs', hh, ha⟩ := h.handshake
  obtain ⟨m, hm, hmh, -⟩ := C23_hash_position (ε := Bytes) flags hash hisId hs' hh
  have hl := h.stream
  have hf : ∀ t, (net t).kind ≠ .fail := by
    intro t
    rcases Nat.lt_or_ge t 3 with h3 | h3
    · exact h.up t h3
    · exact hl.up t h3
  -- the handshake
  have e1 : readAndApply net ((Peer.new ⟨[], 0⟩ hash peerId).sendMessage net (newHandshake hash peerId)) =
      (.ok (), ({ (Peer.new ⟨[], 0⟩ hash peerId) with
        conn := ⟨rest ++ arrivals net 3 2, 5⟩
        log := [.sent (newHandshake hash peerId).asBytes] } : Peer).applyMessage ⟨19, 68, .handshake m⟩) := by
    have hr := readStream_handshake_arriving (net := net) (c := ⟨(net 0).arrive, 1⟩) (rest := rest) hh
      (by rw [← ha]; simp [arrivals]) (fun i _ => hf _)
    have hc : ((Peer.new ⟨[], 0⟩ hash peerId).sendMessage net (newHandshake hash peerId)).conn = ⟨(net 0).arrive, 1⟩ := by
      simp [Peer.sendMessage, Peer.write, Peer.new, Conn.writeAll, Conn.advance]
    unfold readAndApply Peer.readMessage
    rw [hc, hr]
    have hn : Message.newRaw hs' 68 19 = .ok ⟨19, 68, .handshake m⟩ := by
      unfold Message.newRaw Message.contentOf
      rw [if_neg (by decide), if_neg (by decide), if_neg (by decide), if_neg (by decide), if_pos rfl, hm]
      rfl
    simp only [hn]
    rfl
  unfold initPeer
  simp only []
  rw [show (Peer.new ⟨[], 0⟩ hash peerId).infoHash = hash from rfl, show (Peer.new ⟨[], 0⟩ hash peerId).id = peerId from rfl, e1]
  simp only []
  have hact : (({ (Peer.new ⟨[], 0⟩ hash peerId) with
        conn := ⟨rest ++ arrivals net 3 2, 5⟩
        log := [.sent (newHandshake hash peerId).asBytes] } : Peer).applyMessage ⟨19, 68, .handshake m⟩).active = true := by
    simp [Peer.applyMessage, Peer.applyState, Peer.applyContent, Peer.new, hmh]
  rw [hact]
  simp only [Bool.not_true, Bool.false_eq_true, if_false]
  -- the two messages written
  generalize hp1 : ({ (Peer.new ⟨[], 0⟩ hash peerId) with
        conn := ⟨rest ++ arrivals net 3 2, 5⟩
        log := [.sent (newHandshake hash peerId).asBytes] } : Peer).applyMessage ⟨19, 68, .handshake m⟩ = p1
  have hp1c : Reads net ⟨rest, 3⟩ ms 2 0 p1.conn := by rw [← hp1]; exact ⟨rfl, rfl⟩
  have hg1 : Greeted ms P 0 p1 := by
    rw [← hp1]
    refine ⟨fun ⟨i, hi, _⟩ => by omega, fun ⟨i, hi, _⟩ => by omega, fun hne => absurd ?_ hne⟩
    rfl
  have e2 : (p1.sendMessage net newInterested).sendMetadataHandshakeRequest net =
      (true, ((p1.sendMessage net newInterested).sendMetadataHandshakeRequest net).2) := by
    simp [Peer.sendMetadataHandshakeRequest, Peer.write, Conn.writeAll, hf]
  rw [e2]
  simp only []
  obtain ⟨k', j', p', g1, g2, g3, g4, g5, g6⟩ := readyLoop_greets hl hmsgs hP h1 h2 hsoon 10
    (p := ((p1.sendMessage net newInterested).sendMetadataHandshakeRequest net).2) (k := 4) (j := 0)
    (reads_advance (reads_advance hp1c)) (greeted_conn hg1 _ _) (by obtain ⟨i, hi, _⟩ := h1; omega) (by omega) (by omega)
  exact ⟨k', j', p', g1, g2, g3, g4, g5, g6⟩

theorem firstMsgs_add (ms : Nat → WireMsg) (j n : Nat) : firstMsgs ms (j + n) = firstMsgs ms j ++ firstMsgs (fun i => ms (j + i)) n := by
  simp only [firstMsgs, List.range_add, List.map_append, List.map_map]
  rfl

/-- Messages of a kind that does not occur among the first `r` are the same after the first `j ≤ r`. -/
theorem filter_shift {ms : Nat → WireMsg} {q : WireMsg → Bool} {r j : Nat} (h : (firstMsgs ms r).filter q = []) (hj : j ≤ r) {n : Nat} (hn : j ≤ n) :
    (firstMsgs (fun i => ms (j + i)) (n - j)).filter q = (firstMsgs ms n).filter q := by
  have h0 : (firstMsgs ms j).filter q = [] := by
    obtain ⟨t, ht⟩ := firstMsgs_prefix ms hj
    rw [← ht, List.filter_append, List.append_eq_nil_iff] at h
    exact h.1
  rw [show n = j + (n - j) by omega, firstMsgs_add, List.filter_append, h0, List.nil_append, Nat.add_sub_cancel_left]

/-! ### Downloading a piece -/

theorem totalLength_listed {ε : Type} {m : Build} {i : Info} {n : Nat} (h : total (listedFiles i) = n) (hn : n < 2 ^ 64) (h0 : 0 < n) :
    (i.getTotalLength m : Res ε Nat) = .ok n := by
  have hf : i.getFiles = .ok (listedFiles i) := by
    unfold Info.getFiles
    unfold listedFiles at h ⊢
    cases hf : i.files with
    | some fs => rfl
    | none =>
      cases hl : i.length with
      | some k => rfl
      | none => rw [hf, hl] at h; simp [total] at h; omega
  rw [C16_total_length_partial m i _ hf (by rw [← h] at hn; exact hn)]
  exact congrArg _ h

theorem lt_of_pieceCount {n pl k : Nat} (hpl : 0 < pl) (h : k < pieceCount n pl) : k * pl < n := by
  unfold pieceCount at h
  have := (Nat.lt_div_iff_mul_lt hpl).mp h
  have := Nat.mul_comm k pl
  omega

/-- C35 from the first byte on, without the check of the hash. A peer serves the content `d`, of the length of the torrent, and opens as in C76; no blocks
are among its first `r` messages. Then the piece of `d` is downloaded as in `C35_piece_partial`. -/
theorem served_run {sha : Bytes → Bytes} (m : Build) {info : Info} {d : Bytes} (htot : total (listedFiles info) = d.length)
    (hpl : 0 < info.pieceLength) {idx : Nat} (hidx : idx < pieceCount d.length info.pieceLength)
    (hlen : d.length < 2 ^ 64) (ho : info.pieceLength * (idx + 1) < 2 ^ 64) (hi : idx < 2 ^ 32)
    {net : Net} {rest : Bytes} {ms : Nat → WireMsg} {full : Nat → Nat} {part : Nat → Bytes}
    (h : Opening net (info.computeInfoHash sha) rest ms full part) {r : Nat} (hr : r ≤ 10)
    (hmsgs : ∀ j, (ms j).1 ≠ 0 ∧ ∃ msg, Handled (ms j) msg) (hsize : ∀ j size exts, Announces (ms j) size exts → size ≠ 0)
    (h1 : ∃ i, i < r ∧ (ms i).1 = 1) (h2 : ∃ i, i < r ∧ ∃ size exts, Announces (ms i) size exts) (hsoon : BegunBy full part r (26 - 2 * r))
    (hearly : (firstMsgs ms r).filter isBlockMsg = []) (T : Nat)
    (hblocks : (List.range (((piece d info.pieceLength idx).length + 16383) / 16384)).map (blockMsg idx (piece d info.pieceLength idx)) <+:
      (firstMsgs ms (full T)).filter isBlockMsg)
    (hpause : ∀ k, ((piece d info.pieceLength idx).length + 16383) / 16384 ≤ ((firstMsgs ms (full k)).filter isBlockMsg).length ∨
      arrivals net (3 + k) 20 ≠ []) (peerId : Bytes) :
    ∃ f0, ∀ f, f0 ≤ f → ∃ p q, initPeer net (Peer.new ⟨[], 0⟩ (info.computeInfoHash sha) peerId) = (.ok (), p) ∧
      (info.getTotalLength m : Res PeerManagerError Nat) = .ok d.length ∧
      (Downloadable.block info.pieceLength idx d.length).download m net f p = (.ok (piece d info.pieceLength idx), q) := by
  obtain ⟨k0, j0, p, e1, e2, e3, e4, -, -⟩ := C76_opens_partial h (P := fun _ _ => True) hr hmsgs (fun j s e ha => ⟨hsize j s e ha, trivial⟩)
    h1 h2 hsoon peerId
  have hlt := lt_of_pieceCount hpl hidx
  have hl : (piece d info.pieceLength idx).length = pieceSize info.pieceLength idx d.length := by
    simp [piece, pieceSize]
  have hj : ∀ n, j0 ≤ full (k0 + n) := fun n => Nat.le_trans (e2.le_full h.stream) (h.stream.mono (by omega))
  obtain ⟨f0, hf0⟩ := C35_piece_partial m net _ _ _ info.pieceLength idx d.length p (piece d info.pieceLength idx) T hlt ho hlen hi
    hpl hl (h.stream.shift e2) e4 (fun j => hmsgs (j0 + j))
    (by
      rw [filter_shift hearly e3 (hj T)]
      obtain ⟨t, ht⟩ := firstMsgs_prefix ms (h.stream.mono (show T ≤ k0 + T by omega))
      rw [← ht, List.filter_append]
      exact hblocks.trans (List.prefix_append _ _))
    (fun k => by
      rw [filter_shift hearly e3 (hj k), e2.time, Nat.add_assoc]
      exact hpause (k0 + k))
  refine ⟨f0, fun f hf => ?_⟩
  have := hf0 f hf
  have hlen0 := totalLength_listed (ε := PeerManagerError) (m := m) htot hlen (by omega)
  generalize hq : (Downloadable.block info.pieceLength idx d.length).download m net f p = q at this
  obtain ⟨r, q⟩ := q
  simp only at this
  subst this
  exact ⟨p, q, e1, hlen0, hq⟩

/-- C35, exactly, whatever a peer serves: the outcome is the piece, just if its hash is the one in the metadata, and an error otherwise. -/
theorem C35_served_partial {sha : Bytes → Bytes} (m : Build) {info : Info} {d : Bytes} (htot : total (listedFiles info) = d.length)
    (hpl : 0 < info.pieceLength) {idx : Nat} (hidx : idx < pieceCount d.length info.pieceLength)
    (hlen : d.length < 2 ^ 64) (ho : info.pieceLength * (idx + 1) < 2 ^ 64) (hi : idx < 2 ^ 32) (hk : idx < info.pieces.length / 20)
    {net : Net} {rest : Bytes} {ms : Nat → WireMsg} {full : Nat → Nat} {part : Nat → Bytes}
    (h : Opening net (info.computeInfoHash sha) rest ms full part) {r : Nat} (hr : r ≤ 10)
    (hmsgs : ∀ j, (ms j).1 ≠ 0 ∧ ∃ msg, Handled (ms j) msg) (hsize : ∀ j size exts, Announces (ms j) size exts → size ≠ 0)
    (h1 : ∃ i, i < r ∧ (ms i).1 = 1) (h2 : ∃ i, i < r ∧ ∃ size exts, Announces (ms i) size exts) (hsoon : BegunBy full part r (26 - 2 * r))
    (hearly : (firstMsgs ms r).filter isBlockMsg = []) (T : Nat)
    (hblocks : (List.range (((piece d info.pieceLength idx).length + 16383) / 16384)).map (blockMsg idx (piece d info.pieceLength idx)) <+:
      (firstMsgs ms (full T)).filter isBlockMsg)
    (hpause : ∀ k, ((piece d info.pieceLength idx).length + 16383) / 16384 ≤ ((firstMsgs ms (full k)).filter isBlockMsg).length ∨
      arrivals net (3 + k) 20 ≠ []) (peerId : Bytes) :
    ∃ f0, ∀ f, f0 ≤ f → downloadPiece sha m (.connected net) f peerId info idx =
      if (info.pieces.drop (20 * idx)).take 20 = sha (piece d info.pieceLength idx) then .ok (piece d info.pieceLength idx)
      else .err .pieceVerificationFailure := by
  obtain ⟨f0, hf0⟩ := served_run m htot hpl hidx hlen ho hi h hr hmsgs hsize h1 h2 hsoon hearly T hblocks hpause peerId
  refine ⟨f0, fun f hf => ?_⟩
  obtain ⟨p, q, e1, e2, e3⟩ := hf0 f hf
  unfold downloadPiece downloadRun
  simp only [e1, e2, e3, (C15_verify_piece sha info (piece d info.pieceLength idx) idx).1 hk, Res.bind_ok]
  by_cases hh : (info.pieces.drop (20 * idx)).take 20 = sha (piece d info.pieceLength idx)
  · simp only [hh, decide_true, if_true]
  · rw [if_neg hh, if_neg (by simpa using fun e => hh e.symm)]

/-- C35 from the first byte on, with the check of the hash. A peer has the torrent described by the metadata and opens as in C76; no blocks
are among its first `r` messages. Then the piece is downloaded as in `C35_piece_partial`. Missing: peers that choke, keep-alives
(C29), split headers and slower messages (C30). -/
theorem C35_honest_download_partial {sha : Bytes → Bytes} (hsha : ∀ b, (sha b).length = 20) (m : Build) {info : Info} {d : Bytes}
    (hd : Describes sha info d) {idx : Nat} (hidx : idx < pieceCount d.length info.pieceLength)
    (hlen : d.length < 2 ^ 64) (ho : info.pieceLength * (idx + 1) < 2 ^ 64) (hi : idx < 2 ^ 32)
    {net : Net} {rest : Bytes} {ms : Nat → WireMsg} {full : Nat → Nat} {part : Nat → Bytes}
    (h : Opening net (info.computeInfoHash sha) rest ms full part) {r : Nat} (hr : r ≤ 10)
    (hmsgs : ∀ j, (ms j).1 ≠ 0 ∧ ∃ msg, Handled (ms j) msg) (hsize : ∀ j size exts, Announces (ms j) size exts → size ≠ 0)
    (h1 : ∃ i, i < r ∧ (ms i).1 = 1) (h2 : ∃ i, i < r ∧ ∃ size exts, Announces (ms i) size exts) (hsoon : BegunBy full part r (26 - 2 * r))
    (hearly : (firstMsgs ms r).filter isBlockMsg = []) (T : Nat)
    (hblocks : (List.range (((piece d info.pieceLength idx).length + 16383) / 16384)).map (blockMsg idx (piece d info.pieceLength idx)) <+:
      (firstMsgs ms (full T)).filter isBlockMsg)
    (hpause : ∀ k, ((piece d info.pieceLength idx).length + 16383) / 16384 ≤ ((firstMsgs ms (full k)).filter isBlockMsg).length ∨
      arrivals net (3 + k) 20 ≠ []) (peerId : Bytes) :
    ∃ f0, ∀ f, f0 ≤ f → downloadPiece sha m (.connected net) f peerId info idx = .ok (piece d info.pieceLength idx) := by
  have hh := hd.hashes idx hidx
  have hk : idx < info.pieces.length / 20 := by
    have := congrArg List.length hh
    rw [hsha, List.length_take, List.length_drop] at this
    omega
  have := C35_served_partial m hd.total hd.pieceLength hidx hlen ho hi hk h hr hmsgs hsize h1 h2 hsoon hearly T hblocks hpause peerId
  rwa [if_pos hh] at this

/-! ### A peer that has everything -/

/-- The extension handshake of a peer whose metadata has 5 bytes and that has number 3 for metadata messages. -/
def honestExt : WireMsg := (20, 0 :: b!"d1:md11:ut_metadatai3ee13:metadata_sizei5ee")

theorem honestExt_announces : Announces honestExt 5 [(b!"ut_metadata", 3)] :=
  ⟨44, ⟨0, none, some 5, [(b!"ut_metadata", 3)], none, []⟩, ⟨by decide, by decide +kernel⟩, rfl, rfl⟩

theorem unchoke_handled : Handled (1, []) ⟨1, 0, .nothing⟩ := ⟨by simp, rfl⟩

/-- A peer that sends a handshake and some messages at once. -/
def promptPeer (hash : Bytes) (L : List WireMsg) : Net := fun t =>
  if t = 0 then ⟨(newHandshake hash (List.replicate 20 7)).asBytes ++ L.flatMap wire, .up⟩ else ⟨[], .up⟩

theorem promptPeer_opening {hash : Bytes} (h : hash.length = 20) (L : List WireMsg) :
    Opening (promptPeer hash L) hash (L.flatMap wire) (ofList L) (fun _ => L.length) (fun _ => []) where
  handshake := ⟨_, _, _, C23_handshake_layout hash (List.replicate 20 7) h (by simp), by simp [arrivals, promptPeer]⟩
  up t _ := by unfold promptPeer; split <;> simp
  stream := segmented_now L (fun t _ => by unfold promptPeer; split <;> simp) rfl
    (fun t ht => by simp only at ht; rw [promptPeer, if_neg (by omega)])

/-- Only extension messages announce. -/
theorem announces_20 {x : WireMsg} {size : Nat} {exts : List (Bytes × UInt8)} (h : Announces x size exts) : x.1 = 20 := by
  obtain ⟨len, e, he, -⟩ := h
  exact (newRaw_id he.2).1.symm

theorem announces_unique {x : WireMsg} {s1 s2 : Nat} {x1 x2 : List (Bytes × UInt8)} (h1 : Announces x s1 x1) (h2 : Announces x s2 x2) :
    s1 = s2 ∧ x1 = x2 := by
  obtain ⟨l1, e1, a1, b1, c1⟩ := h1
  obtain ⟨l2, e2, a2, b2, c2⟩ := h2
  have := a1.2.symm.trans a2.2
  simp only [Res.ok.injEq, Message.mk.injEq, true_and, ContentType.extension.injEq] at this
  obtain ⟨-, rfl⟩ := this
  exact ⟨by simpa using b1.symm.trans b2, c1.symm.trans c2⟩

/-- Non-vacuity of `C76_opens_partial`: a peer that announces metadata, has two further pieces, and unchokes. -/
example (hash peerId : Bytes) (h : hash.length = 20) : ∃ net p, initPeer net (Peer.new ⟨[], 0⟩ hash peerId) = (.ok (), p) ∧ p.metadataSize = 5 := by
  generalize hL : [honestExt, (4, [0, 0, 0, 1]), (4, [0, 0, 0, 2]), (1, [])] = L
  obtain ⟨k, j, p, h1, -, -, -, -, h2⟩ := C76_opens_partial (promptPeer_opening h L) (P := fun size _ => size = 5) (r := 4) (by omega)
    (by
      refine ofList_mem (P := fun x => x.1 ≠ 0 ∧ ∃ msg, Handled x msg) ?_ ⟨by simp, _, unchoke_handled⟩
      rw [← hL]
      intro x hx
      simp only [List.mem_cons, List.not_mem_nil, or_false] at hx
      rcases hx with rfl | rfl | rfl | rfl
      · exact ⟨by decide, _, honestExt_announces.choose_spec.choose_spec.1⟩
      · exact ⟨by decide, ⟨4, 4, .nothing⟩, by decide, rfl⟩
      · exact ⟨by decide, ⟨4, 4, .nothing⟩, by decide, rfl⟩
      · exact ⟨by decide, _, unchoke_handled⟩)
    (by
      intro j size exts ha
      have : Announces honestExt size exts := by
        rw [← hL] at ha
        match j, ha with
        | 0, ha => exact ha
        | 1, ha => exact absurd (announces_20 ha) (by decide)
        | 2, ha => exact absurd (announces_20 ha) (by decide)
        | 3, ha => exact absurd (announces_20 ha) (by decide)
        | _ + 4, ha => exact absurd (announces_20 ha) (by simp [ofList])
      rw [(announces_unique this honestExt_announces).1]
      exact ⟨by decide, rfl⟩)
    ⟨3, by omega, by rw [← hL]; rfl⟩ ⟨0, by omega, 5, _, by rw [← hL]; exact honestExt_announces⟩ (.inl (by rw [← hL]; simp)) peerId
  exact ⟨_, p, h1, h2⟩

/-- C76 fails for a peer that announces its pieces in nine messages before it unchokes. -/
theorem C76_refuted_busy : ∃ net hash ms full part, Opening net hash (firstMsgs ms 11 |>.flatMap wire) ms full part ∧
    Announces (ms 0) 5 [(b!"ut_metadata", 3)] ∧ (∀ j, 0 < j → j < 10 → (ms j).1 = 4) ∧ (ms 10).1 = 1 ∧
    (initPeer net (Peer.new ⟨[], 0⟩ hash (List.replicate 20 1))).1 = .err .peerNotReady := by
  let L := honestExt :: (List.replicate 9 (4, [0, 0, 0, 1]) ++ [(1, [])])
  refine ⟨promptPeer (List.replicate 20 7) L, List.replicate 20 7, ofList L, _, _, promptPeer_opening (by decide) L, honestExt_announces, ?_, rfl,
    by decide +kernel⟩
  intro j h0 h10
  match j with
  | 1 | 2 | 3 | 4 | 5 | 6 | 7 | 8 | 9 => rfl
  | n + 10 => omega

/-- C76 fails for a peer without metadata extension (BEP 3 only): handshake, all pieces, unchoke. -/
theorem C76_refuted_plain : ∃ net hash ms full part, Opening net hash (firstMsgs ms 2 |>.flatMap wire) ms full part ∧
    (ms 0).1 = 5 ∧ (ms 1).1 = 1 ∧ (initPeer net (Peer.new ⟨[], 0⟩ hash (List.replicate 20 1))).1 = .err .peerNotReady := by
  let L : List WireMsg := [(5, [128]), (1, [])]
  exact ⟨promptPeer (List.replicate 20 7) L, List.replicate 20 7, ofList L, _, _, promptPeer_opening (by decide) L, rfl, rfl, by decide +kernel⟩

/-- The messages of a peer that sends an extension handshake, an unchoke, and the blocks of a piece. -/
def honestMsgs (idx : Nat) (piece : Bytes) : List WireMsg := honestExt :: (1, []) :: pieceBlocks idx piece

/-- Such a peer meets the hypotheses of `served_run`, whatever it serves. -/
theorem prompt_served {sha : Bytes → Bytes} (hsha : ∀ b, (sha b).length = 20) (m : Build) {info : Info} {d : Bytes}
    (htot : total (listedFiles info) = d.length) (hpl : 0 < info.pieceLength) {idx : Nat} (hidx : idx < pieceCount d.length info.pieceLength)
    (hlen : d.length < 2 ^ 64) (ho : info.pieceLength * (idx + 1) < 2 ^ 64) (hi : idx < 2 ^ 32) (peerId : Bytes) :
    ∃ f0, ∀ f, f0 ≤ f → ∃ p q, initPeer (promptPeer (info.computeInfoHash sha) (honestMsgs idx (piece d info.pieceLength idx)))
        (Peer.new ⟨[], 0⟩ (info.computeInfoHash sha) peerId) = (.ok (), p) ∧
      (info.getTotalLength m : Res PeerManagerError Nat) = .ok d.length ∧
      (Downloadable.block info.pieceLength idx d.length).download m
        (promptPeer (info.computeInfoHash sha) (honestMsgs idx (piece d info.pieceLength idx))) f p = (.ok (piece d info.pieceLength idx), q) := by
  generalize hL : honestMsgs idx (piece d info.pieceLength idx) = L
  have hfilter : L.filter isBlockMsg = pieceBlocks idx (piece d info.pieceLength idx) := by
    rw [← hL, honestMsgs, List.filter_cons, if_neg (by decide), List.filter_cons, if_neg (by decide), pieceBlocks_filter]
  have h0 : ofList L 0 = honestExt := by rw [← hL]; rfl
  have h1 : ofList L 1 = (1, []) := by rw [← hL]; rfl
  have hlen2 : 2 ≤ L.length := by rw [← hL]; simp [honestMsgs]
  exact served_run m htot hpl hidx hlen ho hi (promptPeer_opening (hash := info.computeInfoHash sha) (hsha _) L)
    (r := 2) (by omega)
    (by
      refine ofList_mem (P := fun x => x.1 ≠ 0 ∧ ∃ msg, Handled x msg) ?_ ⟨by simp, _, unchoke_handled⟩
      rw [← hL]
      intro x hx
      simp only [honestMsgs, List.mem_cons] at hx
      rcases hx with rfl | rfl | hx
      · exact ⟨by decide, _, honestExt_announces.choose_spec.choose_spec.1⟩
      · exact ⟨by simp, _, unchoke_handled⟩
      · exact pieceBlocks_handled x hx)
    (by
      refine ofList_mem (P := fun x => ∀ size exts, Announces x size exts → size ≠ 0) ?_ (fun size exts ha => absurd (announces_20 ha) (by decide))
      rw [← hL]
      intro x hx size exts ha
      simp only [honestMsgs, List.mem_cons] at hx
      rcases hx with rfl | rfl | hx
      · rw [(announces_unique ha honestExt_announces).1]; decide
      · exact absurd (announces_20 ha) (by decide)
      · simp only [pieceBlocks, List.mem_map] at hx
        obtain ⟨i, -, rfl⟩ := hx
        exact absurd (announces_20 ha) (by simp [blockMsg]))
    ⟨1, by omega, by rw [h1]⟩ ⟨0, by omega, 5, _, by rw [h0]; exact honestExt_announces⟩ (.inl hlen2)
    (by
      rw [firstMsgs_ofList L 2 hlen2, ← hL]
      rfl) 0
    (by rw [firstMsgs_all, hfilter]; exact List.prefix_refl _)
    (by
      intro k
      left
      rw [firstMsgs_all, hfilter]
      simp [pieceBlocks])
    peerId

/-- Every piece of every torrent can be downloaded. -/
theorem honest_serves {sha : Bytes → Bytes} (hsha : ∀ b, (sha b).length = 20) (m : Build) {info : Info} {d : Bytes}
    (hd : Describes sha info d) {idx : Nat} (hidx : idx < pieceCount d.length info.pieceLength)
    (hlen : d.length < 2 ^ 64) (ho : info.pieceLength * (idx + 1) < 2 ^ 64) (hi : idx < 2 ^ 32) (peerId : Bytes) :
    ∃ net f, downloadPiece sha m (.connected net) f peerId info idx = .ok (piece d info.pieceLength idx) := by
  have hh := hd.hashes idx hidx
  have hk : idx < info.pieces.length / 20 := by
    have := congrArg List.length hh
    rw [hsha, List.length_take, List.length_drop] at this
    omega
  obtain ⟨f, hf⟩ := prompt_served hsha m hd.total hd.pieceLength hidx hlen ho hi peerId
  obtain ⟨p, q, e1, e2, e3⟩ := hf f (Nat.le_refl _)
  refine ⟨promptPeer (info.computeInfoHash sha) (honestMsgs idx (piece d info.pieceLength idx)), f, ?_⟩
  unfold downloadPiece downloadRun
  simp only [e1, e2, e3, (C15_verify_piece sha info (piece d info.pieceLength idx) idx).1 hk, hh, decide_true, Res.bind_ok, if_true]

end RustBit
