/-
C98: what the client tells a tracker about itself.
-/
import Verif.Props.LookupEnds
import Verif.Props.Conversation
import Verif.Model.Process
import Verif.Props.Actors

namespace RustBit
open Spec

/-- The datagrams of an exchange: connect requests, then at most one announce request with a connection identifier of 8 bytes. -/
theorem udpExchange_sent (net : UdpNet) (infoHash peerId : Bytes) :
    ∃ k, (udpExchange net infoHash peerId ⟨[], 0⟩).2.sent = List.replicate k (makeConnectionMessage transactionId) ∨
      ∃ cid, cid.length = 8 ∧ (udpExchange net infoHash peerId ⟨[], 0⟩).2.sent =
        List.replicate k (makeConnectionMessage transactionId) ++ [makeAnnounceMessage transactionId cid peerId infoHash] := by
  obtain ⟨k, hk, hs, hr, -, h5, h6, h7⟩ := connectLoop_spec net (makeConnectionMessage transactionId) 4 ⟨[], 0⟩ (List.replicate 16 0) (by simp)
  simp only [Nat.zero_add, List.nil_append] at hs hr h5 h6 h7
  unfold udpExchange connectToTracker
  generalize connectLoop net (makeConnectionMessage transactionId) 4 ⟨[], 0⟩ (List.replicate 16 0) = x at hs hr h5 h6 h7
  obtain ⟨r, s⟩ := x
  simp only at hs hr h5 h6 h7
  refine ⟨k, ?_⟩
  rcases first_recv net.recv 4 with h | ⟨j, hj, hf, hn⟩
  · obtain ⟨-, rfl⟩ := h5 h
    exact .inl hs
  · cases hc : net.recv j with
    | failed => exact absurd hc hn
    | never =>
      obtain ⟨-, rfl⟩ := h7 j hj hf hc
      exact .inl hs
    | datagram d =>
      obtain ⟨rfl, rfl⟩ := h6 j d hj hf hc
      right
      refine ⟨(d.take 16 ++ (List.replicate 16 (0 : UInt8)).drop d.length).drop 8, ?_, ?_⟩
      · simp only [List.length_drop, List.length_append, List.length_take, List.length_replicate]
        omega
      · simp only [sendUdp, hs, List.length_replicate]
        cases hsend : net.send (j + 1) with
        | false => rfl
        | true =>
          simp only [if_true, readAnnounce, readUdp]
          cases hrv : net.recv s.recvs with
          | never => rfl
          | failed => rfl
          | datagram b =>
            simp only []
            generalize List.replicate 4000 (0 : UInt8) = buf
            split <;> rfl

/-- C98: every datagram sent in a lookup is a connect request, which says nothing about the client or the torrent, or an announce
request for this torrent and with this peer identifier, according to which 0 bytes have been downloaded and uploaded, 0 bytes are left and the client
listens on port 8000. That nothing has been uploaded is always true: see `C96_piece_partial`, `C96_metadata_partial`. -/
theorem C98_announced_partial (udp : UdpNet) (http : Bytes → HttpGet) (peerId : Bytes) (url : TrackerUrl) (infoHash : Bytes)
    (hi : peerId.length = 20) (hh : infoHash.length = 20) :
    ∀ x ∈ (getPeersByTracker udp http peerId url infoHash).2.sent,
      (x.length = 16 ∧ fieldNat x 8 4 = 0) ∨
      (x.length = 98 ∧ fieldNat x 8 4 = 1 ∧ FieldAt x 16 infoHash ∧ FieldAt x 36 peerId ∧ fieldNat x 56 8 = 0 ∧ fieldNat x 64 8 = 0 ∧
        fieldNat x 72 8 = 0 ∧ fieldNat x 96 2 = 8000) := by
  have hconn : ∀ k, ∀ x ∈ List.replicate k (makeConnectionMessage transactionId), x.length = 16 ∧ fieldNat x 8 4 = 0 := by
    intro k x hx
    rw [(List.mem_replicate.mp hx).2]
    exact ⟨(C58_connect_request transactionId rfl).1, (C58_connect_request transactionId rfl).2.2.1⟩
  have key : ∀ x ∈ (udpExchange udp infoHash peerId ⟨[], 0⟩).2.sent,
      (x.length = 16 ∧ fieldNat x 8 4 = 0) ∨
      (x.length = 98 ∧ fieldNat x 8 4 = 1 ∧ FieldAt x 16 infoHash ∧ FieldAt x 36 peerId ∧ fieldNat x 56 8 = 0 ∧ fieldNat x 64 8 = 0 ∧
        fieldNat x 72 8 = 0 ∧ fieldNat x 96 2 = 8000) := by
    intro x hx
    obtain ⟨k, e | ⟨cid, hc, e⟩⟩ := udpExchange_sent udp infoHash peerId
    · rw [e] at hx
      exact Or.inl (hconn k x hx)
    · rw [e, List.mem_append, List.mem_singleton] at hx
      rcases hx with hx | rfl
      · exact .inl (hconn k x hx)
      · obtain ⟨h1, -, h3, -, h5, h6, h7, h8, h9, -, -, -, -, h14⟩ := C58_announce_request transactionId cid peerId infoHash rfl hc hi hh
        exact .inr ⟨h1, h3, h5, h6, h7, h8, h9, h14⟩
  have call : ∀ x ∈ (udpCall udp infoHash peerId url).2.sent, x ∈ (udpExchange udp infoHash peerId ⟨[], 0⟩).2.sent := by
    unfold udpCall
    simp only []
    split
    · intro x hx; cases hx
    · split
      · intro x hx; cases hx
      · intro x hx; cases hx
      · split
        · exact fun x hx => hx
        · intro x hx; cases hx
  unfold getPeersByTracker
  split
  · intro x hx; cases hx
  · split
    · exact fun x hx => key x (call x hx)
    · intro x hx; cases hx

/-- Non-vacuity: a lookup with an announce request. -/
example : ((getPeersByTracker (answers (List.replicate 16 0) (List.replicate 26 0)) (fun _ => .failed) (List.replicate 20 1)
    ⟨b!"udp", some b!"h", some 1, []⟩ (List.replicate 20 7)).2.sent.map List.length) = [16, 98] := by decide +kernel

/-- The full C98 is false: the amount left that is announced is 0 for every torrent whatever; it is the true one just if the torrent is empty. A tracker
that believes this counts the client among those that have everything. -/
theorem C98_refuted_left (udp : UdpNet) (http : Bytes → HttpGet) (peerId : Bytes) (url : TrackerUrl) (info : Info) (sha : Bytes → Bytes) (m : Build)
    (total : Nat) (hi : peerId.length = 20) (hsha : ∀ x, (sha x).length = 20) (_ht : (info.getTotalLength m : Res Unit Nat) = .ok total) :
    ∀ x ∈ (getPeersByTracker udp http peerId url (info.computeInfoHash sha)).2.sent, x.length = 98 → (fieldNat x 64 8 = total ↔ total = 0) := by
  intro x hx hl
  rcases C98_announced_partial udp http peerId url _ hi (hsha _) x hx with ⟨h, -⟩ | ⟨-, -, -, -, -, h, -⟩
  · omega
  · rw [h]; omega

/-- Non-vacuity: a torrent of one byte of which nothing is there yet is announced with nothing left. -/
example : (oneInfo.getTotalLength .debug : Res Unit Nat) = .ok 1 ∧
    ((getPeersByTracker (answers (List.replicate 16 0) (List.replicate 26 0)) (fun _ => .failed) (List.replicate 20 1)
      ⟨b!"udp", some b!"h", some 1, []⟩ (oneInfo.computeInfoHash fun _ => List.replicate 20 7)).2.sent.map fun x => (x.length, fieldNat x 64 8))
      = [(16, 0), (98, 0)] := by decide +kernel

/-- ... the port announced is none on which the program listens ... -/
theorem C98_refuted_port (udp : UdpNet) (http : Bytes → HttpGet) (peerId : Bytes) (url : TrackerUrl) (infoHash : Bytes)
    (hi : peerId.length = 20) (hh : infoHash.length = 20) :
    ∀ x ∈ (getPeersByTracker udp http peerId url infoHash).2.sent, x.length = 98 → fieldNat x 96 2 ∉ listening := by
  intro x hx hl
  rcases C98_announced_partial udp http peerId url _ hi hh x hx with ⟨h, -⟩ | ⟨-, -, -, -, -, -, -, h⟩
  · omega
  · rw [h]; decide

/-- ... and an HTTP tracker is not told any of this, although the parameters `port`, `uploaded`, `downloaded` and `left` are required (BEP 3). -/
theorem C98_refuted_http (url : TrackerUrl) (infoHash peerId : Bytes) (hq : c!"?" ∉ url.asStr) (hf : c!"#" ∉ url.asStr)
    (hp : ∀ b ∈ peerId, IsAlnum b) :
    ∀ k ∈ [b!"port", b!"uploaded", b!"downloaded", b!"left"], k ∉ (queryParams (announceUrl url infoHash peerId)).map Prod.fst := by
  rw [(C67_announce_url_partial url infoHash peerId hq hf hp).1]
  simp only [List.map_cons, List.map_nil]
  decide

example : c!"?" ∉ b!"http://t/announce" ∧ c!"#" ∉ b!"http://t/announce" ∧ ∀ b ∈ b!"abc", IsAlnum b := by
  simp only [IsAlnum]; decide

end RustBit
