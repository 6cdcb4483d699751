/-
A peer that never stops sending messages (C37): neither the metadata nor a piece is ever got from it, and the attempt never ends.
-/
import Verif.Props.Metadata
import Verif.Props.Finish

namespace RustBit
open Spec

/-- The messages of the peer: an extension handshake, and unchokes for ever. -/
def endlessMsgs (j : Nat) : WireMsg := if j = 0 then honestExt else (1, [])

/-- A peer that sends a handshake and then one message with every system call. -/
def endlessPeer (hash : Bytes) : Net := fun t =>
  if t = 0 then ⟨(newHandshake hash (List.replicate 20 7)).asBytes, .up⟩ else if t < 3 then ⟨[], .up⟩ else ⟨wire (endlessMsgs (t - 3)), .up⟩

theorem endless_arrivals (hash : Bytes) (k : Nat) : arrivals (endlessPeer hash) 3 k = streamed endlessMsgs k := by
  induction k with
  | zero => rfl
  | succ k ih =>
    rw [arrivals_add, arrivals_one, ih, streamed_succ]
    congr 1
    unfold endlessPeer
    rw [if_neg (by omega), if_neg (by omega), Nat.add_sub_cancel_left]

theorem endless_opening {hash : Bytes} (h : hash.length = 20) : Opening (endlessPeer hash) hash [] endlessMsgs (fun k => k) (fun _ => []) where
  handshake := ⟨_, _, _, C23_handshake_layout hash (List.replicate 20 7) h (by simp), by simp [arrivals, endlessPeer]⟩
  up t _ := by unfold endlessPeer; split <;> (try split) <;> simp
  stream := ⟨fun t _ => by unfold endlessPeer; split <;> (try split) <;> simp, fun k => by simp [endless_arrivals],
    fun k => ⟨List.nil_prefix, (wire_ne_nil _).symm⟩, fun k => .inl rfl, fun k h => absurd rfl h⟩

/-- What is in the messages: nothing that is data, no choke, and what has been announced of the metadata does not change. -/
theorem endless_msg (j : Nat) : ∃ msg, Handled (endlessMsgs j) msg ∧ msg.isExtensionData = false ∧ msg.isRequest = false ∧
    ∀ p : Peer, p.choked = false → mapGet p.extensions b!"ut_metadata" = some 3 →
      (p.applyMessage msg).choked = false ∧ mapGet (p.applyMessage msg).extensions b!"ut_metadata" = some 3 := by
  unfold endlessMsgs
  split
  · refine ⟨⟨20, 44, .extension ⟨0, none, some 5, [(b!"ut_metadata", 3)], none, []⟩⟩, ⟨by decide, by decide +kernel⟩, by decide, by decide, ?_⟩
    intro p hp he
    exact ⟨hp, rfl⟩
  · exact ⟨_, unchoke_handled, rfl, rfl, fun p _ he => ⟨rfl, he⟩⟩

/-- The loop never ends. -/
theorem endless_run (m : Build) {hash : Bytes} (h : hash.length = 20) (d : Downloadable)
    (hfil : ∀ msg, msg.isExtensionData = false → msg.isRequest = false → d.messageFilter msg = false)
    (hreq : ∀ p : Peer, mapGet p.extensions b!"ut_metadata" = some 3 → ∃ msg, (d.request m p 0 : Res DownloadableError Message) = .ok msg) :
    ∀ (f : Nat) (s : DState) (k j : Nat), Reads (endlessPeer hash) ⟨[], 3⟩ endlessMsgs k j s.peer.conn → s.buf.buffer = [] → s.buf.capacity ≠ 0 →
      s.peer.choked = false → mapGet s.peer.extensions b!"ut_metadata" = some 3 →
      ∃ s', execRun m (endlessPeer hash) d f s = .again s' := by
  have hs := (endless_opening h).stream
  intro f
  induction f with
  | zero => intro s _ _ _ _ _ _ _; exact ⟨s, rfl⟩
  | succ f ih =>
    intro s k j hr hbuf hcap hck hex
    have hne : (s.peer.conn.after (endlessPeer hash) 2).buf ≠ [] := by
      intro e
      have h1 := hr.after 2
      have h2 := hr.le_full hs
      have h3 := streamed_lt endlessMsgs (show j < k + 2 by omega)
      rw [e, List.append_nil, List.nil_append, endless_arrivals] at h1
      rw [← h1] at h3
      have := wire_length_ge (endlessMsgs j)
      omega
    obtain ⟨msg, hm, hm1, hm2, hm3⟩ := endless_msg j
    obtain ⟨n, d', hr1, hr2, -⟩ := poll_message hs hr hm.1 hne
    have hpush : s.buf.pushMessage d msg = s.buf := by simp [MessageBuffer.pushMessage, hfil msg hm1 hm2]
    have hstep : execStep m (endlessPeer hash) d s = execTail m (endlessPeer hash) d ⟨({ s.peer with conn := d' } : Peer).applyMessage msg, s.buf, 0⟩ := by
      unfold execStep Peer.readMessage
      rw [hr1]
      simp only [hm.2, hpush]
    obtain ⟨a1, a2⟩ := hm3 { s.peer with conn := d' } hck hex
    rw [execRun, hstep]
    obtain ⟨s', e0, e1, e2, -, e4⟩ := execTail_again (m := m) (net := endlessPeer hash) (d := d)
      (s := ⟨({ s.peer with conn := d' } : Peer).applyMessage msg, s.buf, 0⟩)
      (by simp only [MessageBuffer.isFull, hbuf, List.length_nil]; exact beq_eq_false_iff_ne.mpr (Ne.symm hcap))
      a1 (by simp)
      (by
        simp only [hbuf, List.length_nil]
        exact hreq _ a2)
    rw [e0]
    rcases e4 with e4 | ⟨x, e4⟩
    · refine ih s' (k + n) (j + 1) ?_ (by rw [e1]; exact hbuf) (by rw [e2]; exact hcap) (by rw [e4]; exact a1) (by rw [e4]; exact a2)
      rw [e4, applyMessage_conn]
      exact hr2
    · refine ih s' (k + n + 1) (j + 1) ?_ (by rw [e1]; exact hbuf) (by rw [e2]; exact hcap) (by rw [e4]; exact a1) (by rw [e4]; exact a2)
      rw [e4]
      simp only [applyMessage_conn]
      exact reads_advance hr2

/-- The peer opens. -/
theorem endless_opens {hash : Bytes} (h : hash.length = 20) (peerId : Bytes) :
    ∃ k j p, initPeer (endlessPeer hash) (Peer.new ⟨[], 0⟩ hash peerId) = (.ok (), p) ∧ Reads (endlessPeer hash) ⟨[], 3⟩ endlessMsgs k j p.conn ∧
      p.choked = false ∧ p.metadataSize = 5 ∧ mapGet p.extensions b!"ut_metadata" = some 3 := by
  obtain ⟨k, j, p, h1, h2, -, h3, -, h4, h5⟩ := C76_opens_partial (endless_opening h)
    (P := fun size exts => size = 5 ∧ mapGet exts b!"ut_metadata" = some 3) (r := 2) (by omega)
    (by
      intro j
      obtain ⟨msg, hm, -⟩ := endless_msg j
      refine ⟨?_, msg, hm⟩
      unfold endlessMsgs
      split <;> decide)
    (by
      intro j size exts ha
      have : Announces honestExt size exts := by
        unfold endlessMsgs at ha
        split at ha
        · exact ha
        · exact absurd (announces_20 ha) (by decide)
      rw [(announces_unique this honestExt_announces).1, (announces_unique this honestExt_announces).2]
      exact ⟨by decide, rfl, rfl⟩)
    ⟨1, by omega, rfl⟩ ⟨0, by omega, 5, _, honestExt_announces⟩ (.inl (by show 2 ≤ 26 - 2 * 2; decide)) peerId
  exact ⟨k, j, p, h1, h2, h3, h4, h5⟩

/-- C37 refuted for metadata: there is a peer from which, however long one waits, getting the metadata does not end. -/
theorem C37_refuted_metadata (m : Build) {hash : Bytes} (h : hash.length = 20) (peerId : Bytes) :
    ∃ net, ∀ f, getInfo m (.connected net) f peerId hash = .hang := by
  refine ⟨endlessPeer hash, fun f => ?_⟩
  obtain ⟨k, j, p, h1, h2, h3, h4, h5⟩ := endless_opens h peerId
  have hcap : (Downloadable.info.capacity m p : Res DownloadableError Nat) = .ok 1 := by
    simp only [Downloadable.capacity, h4]
    rfl
  obtain ⟨s', hs'⟩ := endless_run m h .info (fun msg a _ => a) (fun p hp => ⟨_, by simp only [Downloadable.request, hp]; exact newMetadata_eq 3 0 (by decide)⟩)
    f ⟨p, ⟨[], 1, 0⟩, 0⟩ k j h2 rfl (by simp) h3 h5
  unfold getInfo getInfoRun
  simp only [h1, Downloadable.download, hcap, execute, hs']

/-- C37 refuted for pieces: there is a peer from which, however long one waits, getting a piece of the torrent does not end. -/
theorem C37_refuted_piece {sha : Bytes → Bytes} (hsha : ∀ b, (sha b).length = 20) (m : Build) {info : Info} {d : Bytes}
    (hd : Describes sha info d) {idx : Nat} (hidx : idx < pieceCount d.length info.pieceLength)
    (hlen : d.length < 2 ^ 64) (ho : info.pieceLength * (idx + 1) < 2 ^ 64) (hi : idx < 2 ^ 32) (peerId : Bytes) :
    ∃ net, ∀ f, downloadPiece sha m (.connected net) f peerId info idx = .hang := by
  refine ⟨endlessPeer (info.computeInfoHash sha), fun f => ?_⟩
  have hl : (info.computeInfoHash sha).length = 20 := hsha _
  obtain ⟨k, j, p, h1, h2, h3, h4, h5⟩ := endless_opens hl peerId
  have hlt := lt_of_pieceCount hd.pieceLength hidx
  obtain ⟨n, hn⟩ : ∃ n, ((Downloadable.block info.pieceLength idx d.length).capacity m p : Res DownloadableError Nat) = .ok (n + 1) := by
    have hps : 0 < pieceSize info.pieceLength idx d.length := by
      have := hd.pieceLength
      simp only [pieceSize]
      omega
    refine ⟨(pieceSize info.pieceLength idx d.length + 16383) / 16384 - 1, ?_⟩
    simp only [Downloadable.capacity, realPieceLength_eq m info.pieceLength idx d.length hlt ho hi, Res.bind_ok]
    have : (pieceSize info.pieceLength idx d.length + 16383) / 16384 - 1 + 1 = (pieceSize info.pieceLength idx d.length + 16383) / 16384 := by omega
    rw [this, stepByLen_spec _ _ (by decide)]
    rfl
  obtain ⟨s', hs'⟩ := endless_run m hl (.block info.pieceLength idx d.length) (fun msg _ b => b)
    (fun p _ => ⟨_, blockRequest_eq m info.pieceLength idx d.length 0 (by omega) hlen⟩)
    f ⟨p, ⟨[], n + 1, 0⟩, 0⟩ k j h2 rfl (by simp) h3 h5
  unfold downloadPiece downloadRun
  simp only [h1, totalLength_listed hd.total hlen (by omega), Downloadable.download, hn, execute, hs']

/-- Non-vacuity: in every world, for the first piece of the torrent of three bytes. -/
example {sha : Bytes → Bytes} (hsha : ∀ b, (sha b).length = 20) (m : Build) :
    ∃ net, ∀ f, downloadPiece sha m (.connected net) f [] (threeBytes sha) 0 = .hang :=
  C37_refuted_piece hsha m (threeBytes_describes hsha) (by show 0 < pieceCount 3 2; decide) (by decide) (by show 2 * (0 + 1) < 2 ^ 64; decide) (by decide) []

end RustBit
