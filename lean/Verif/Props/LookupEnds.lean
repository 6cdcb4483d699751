/-
C97: when a lookup at a tracker ends, and how long the found peers are tried.
-/
import Verif.Props.Lookup

namespace RustBit
open Spec Decoder

/-- The tracker (or the network) leaves the client waiting: the first `k` receives fail and no datagram ever arrives after the connect request
`k`; or the answer to a connect request arrives, the announce request can be sent and its answer never arrives. -/
def Silent (udp : UdpNet) : Prop :=
  ∃ k, k < 4 ∧ (∀ i, i < k → udp.recv i = .failed) ∧
    (udp.recv k = .never ∨ ((∃ d, udp.recv k = .datagram d) ∧ udp.send (k + 1) = true ∧ udp.recv (k + 1) = .never))

/-- The first receive that does not fail. -/
theorem first_recv (recv : Nat → UdpRecv) (n : Nat) :
    (∀ i, i < n → recv i = .failed) ∨ ∃ k, k < n ∧ (∀ i, i < k → recv i = .failed) ∧ recv k ≠ .failed := by
  induction n with
  | zero => exact .inl (fun i h => absurd h (by omega))
  | succ n ih =>
    rcases ih with h | ⟨k, h1, h2, h3⟩
    · by_cases hn : recv n = .failed
      · refine .inl (fun i hi => ?_)
        rcases Nat.lt_or_ge i n with h' | h'
        · exact h i h'
        · rw [show i = n by omega]; exact hn
      · exact .inr ⟨n, by omega, h, hn⟩
    · exact .inr ⟨k, by omega, h2, h3⟩

theorem udpExchange_hang (net : UdpNet) (infoHash peerId : Bytes) :
    (udpExchange net infoHash peerId ⟨[], 0⟩).1 = .hang ↔ Silent net := by
  obtain ⟨k, hk, hs, hr, -, h5, h6, h7⟩ := connectLoop_spec net (makeConnectionMessage transactionId) 4 ⟨[], 0⟩ (List.replicate 16 0) (by simp)
  simp only [Nat.zero_add, List.nil_append] at hs hr h5 h6 h7
  unfold udpExchange connectToTracker
  generalize connectLoop net (makeConnectionMessage transactionId) 4 ⟨[], 0⟩ (List.replicate 16 0) = x at hs hr h5 h6 h7
  obtain ⟨r, s⟩ := x
  simp only at hs hr h5 h6 h7
  have uniq : ∀ a b, (∀ i, i < a → net.recv i = .failed) → (∀ i, i < b → net.recv i = .failed) → net.recv a ≠ .failed →
      net.recv b ≠ .failed → a = b := by
    intro a b ha hb h1 h2
    rcases Nat.lt_trichotomy a b with h | h | h
    · exact absurd (hb a h) h1
    · exact h
    · exact absurd (ha b h) h2
  rcases first_recv net.recv 4 with h | ⟨j, hj, hf, hn⟩
  · obtain ⟨-, rfl⟩ := h5 h
    simp only [reduceCtorEq, false_iff]
    rintro ⟨k', h1, -, h3 | ⟨⟨d, h3⟩, -⟩⟩
    · rw [h k' h1] at h3; cases h3
    · rw [h k' h1] at h3; cases h3
  · cases hc : net.recv j with
    | failed => exact absurd hc hn
    | never =>
      obtain ⟨-, rfl⟩ := h7 j hj hf hc
      simp only [true_iff]
      exact ⟨j, hj, hf, .inl hc⟩
    | datagram d =>
      obtain ⟨rfl, rfl⟩ := h6 j d hj hf hc
      have hiff : Silent net ↔ (net.send (j + 1) = true ∧ net.recv (j + 1) = .never) := by
        constructor
        · rintro ⟨k', -, h2, h3⟩
          have hk' : k' = j := uniq k' j h2 hf (by rcases h3 with h3 | ⟨⟨d', h3⟩, -⟩ <;> simp [h3]) hn
          subst hk'
          rcases h3 with h3 | ⟨-, h3⟩
          · rw [hc] at h3; cases h3
          · exact h3
        · rintro ⟨h1, h2⟩
          exact ⟨j, hj, hf, .inr ⟨⟨d, hc⟩, h1, h2⟩⟩
      rw [hiff]
      simp only [sendUdp, hs, List.length_replicate]
      cases hsend : net.send (j + 1) with
      | false => simp
      | true =>
        simp only [if_true, readAnnounce, readUdp, hr, true_and]
        cases hrv : net.recv (j + 1) with
        | never => simp
        | failed => simp
        | datagram b =>
          simp only [reduceCtorEq, iff_false]
          generalize List.replicate 4000 (0 : UInt8) = buf
          split
          · unfold slice
            split <;> simp
          · simp

/-- C97, exactly: a lookup never ends just if the tracker leaves the client waiting for a datagram, or an HTTP tracker answers with a document on
which the decoder never ends. In all other cases it ends. -/
theorem C97_never_ends_partial (udp : UdpNet) (http : Bytes → HttpGet) (peerId : Bytes) (url : TrackerUrl) (infoHash : Bytes) :
    (getPeersByTracker udp http peerId url infoHash).1 = .hang ↔
      (Contacted udp url ∧ Silent udp) ∨
      (url.scheme = b!"http" ∧ ∃ b, http (announceUrl url infoHash peerId) = .body b ∧ Stuck b) := by
  unfold getPeersByTracker Contacted
  by_cases h1 : url.scheme = b!"http"
  · rw [if_pos h1]
    simp only [h1, true_and, show b!"http" ≠ b!"udp" by decide, false_and, false_or]
    unfold tcpCall
    cases hh : http (announceUrl url infoHash peerId) with
    | failed => simp [Res.mapErr]
    | broken => simp [Res.mapErr]
    | body b =>
      have hst : Stuck b ↔ decode b = .hang := by
        rw [← C05_hangs_exactly_partial b]; exact decodeAt_hang_iff.symm
      simp only [HttpGet.body.injEq, exists_eq_left', hst]
      cases hd : Decoder.decode b with
      | panic => simp [Res.mapErr]
      | hang => simp [Res.mapErr]
      | err e => simp [Res.mapErr]
      | ok r =>
        obtain ⟨m, i⟩ := r
        have hx : m.getBytesFromDict b!"peers" ≠ .hang := by
          unfold Metainfo.getBytesFromDict
          cases m with
          | dictionary d =>
            simp only [Metainfo.getDictContent, Res.bind_ok]
            cases mapGet d b!"peers" with
            | none => simp
            | some v => cases v <;> simp [Metainfo.getBytesContent]
          | integer _ | list _ | string _ | nothing => simp [Metainfo.getDictContent]
        simp only [Res.mapErr, Res.bind_ok]
        cases hg : m.getBytesFromDict b!"peers" with
        | hang => exact absurd hg hx
        | panic => simp
        | err e => simp
        | ok v => simp
  · rw [if_neg h1]
    by_cases h2 : url.scheme = b!"udp"
    · rw [if_pos h2]
      simp only [h2, true_and, false_and, or_false, show ¬ b!"udp" = b!"http" by decide]
      have key : (udpCall udp infoHash peerId url).1 = .hang ↔
          ((udp.bind = true ∧ ∃ h p, url.hostStr = some h ∧ url.port = some p ∧ udp.connect (h ++ c!":" :: decimal p) = true) ∧ Silent udp) := by
        unfold udpCall
        cases hb : udp.bind with
        | false => simp
        | true =>
          simp only [Bool.not_true, Bool.false_eq_true, if_false, true_and]
          cases hh : url.hostStr with
          | none => simp
          | some h =>
            cases hp : url.port with
            | none => simp
            | some p =>
              simp only [Option.some.injEq, exists_and_left, exists_eq_left']
              cases hc : udp.connect (h ++ c!":" :: decimal p) with
              | false => simp
              | true => simpa using udpExchange_hang udp infoHash peerId
      rw [← key]
      generalize udpCall udp infoHash peerId url = x
      obtain ⟨r, s⟩ := x
      cases r <;> simp [Res.mapErr]
    · rw [if_neg h2]
      simp [h1, h2]

/-- Non-vacuity: a tracker that never answers the announce request after one failed receive; and one that answers everything. -/
example : Silent ⟨true, fun _ => true, fun _ => true, fun i => if i = 0 then .failed else if i = 1 then .datagram [1] else .never⟩ ∧
    ¬ Silent ⟨true, fun _ => true, fun _ => true, fun _ => .datagram [1]⟩ := by
  refine ⟨⟨1, by decide, fun i hi => by rw [show i = 0 by omega]; rfl, .inr ⟨⟨[1], rfl⟩, rfl, rfl⟩⟩, ?_⟩
  rintro ⟨k, -, -, h | ⟨-, -, h⟩⟩ <;> cases h

/-- The full C97 is false: nothing limits the time a lookup waits for a tracker that does not answer, which is how a tracker that is not there behaves;
then the first connect request is also the last. -/
theorem C97_refuted (http : Bytes → HttpGet) (peerId infoHash host str : Bytes) (port : Nat) (send : Nat → Bool) :
    getPeersByTracker ⟨true, fun _ => true, send, fun _ => .never⟩ http peerId ⟨b!"udp", some host, some port, str⟩ infoHash =
      (.hang, ⟨[], [makeConnectionMessage transactionId]⟩) := rfl

/-! ### Trying the peers -/

theorem tryMillis_le (takes : Nat → Nat) : ∀ (ps : List PeerEndpoint) (k : Nat), tryMillis takes k ps ≤ 50 * ps.length := by
  intro ps
  induction ps with
  | nil => intro k; simp [tryMillis]
  | cons p t ih =>
    intro k
    have := ih (k + 1)
    rw [tryMillis, List.length_cons]
    split <;> omega

theorem tryMillis_slow : ∀ (ps : List PeerEndpoint) (k : Nat), (∀ p ∈ ps, (parseSocketV4 p.endpoint).isSome = true) →
    tryMillis (fun _ => 50) k ps = 50 * ps.length := by
  intro ps
  induction ps with
  | nil => intro k _; rfl
  | cons p t ih =>
    intro k h
    rw [tryMillis, ih (k + 1) (fun q hq => h q (List.mem_cons_of_mem _ hq)), if_pos (h p List.mem_cons_self), List.length_cons]
    omega

theorem fromBytes_length (b : Bytes) : (PeerEndpoint.fromBytes b).length = b.length / 6 := by
  simp [PeerEndpoint.fromBytes, chunksExact]

/-- An answer of a UDP tracker has at most 663 peers. -/
theorem udp_peers (udp : UdpNet) (http : Bytes → HttpGet) (peerId : Bytes) (url : TrackerUrl) (infoHash : Bytes) (peers : List PeerEndpoint)
    (hs : url.scheme = b!"udp") (h : (getPeersByTracker udp http peerId url infoHash).1 = .ok peers) : peers.length ≤ 663 := by
  unfold getPeersByTracker at h
  rw [if_neg (by rw [hs]; decide), if_pos hs] at h
  have key0 : ∀ b, (udpExchange udp infoHash peerId ⟨[], 0⟩).1 = .ok b → b.length ≤ 3980 := by
    intro b hb
    unfold udpExchange at hb
    generalize connectToTracker udp transactionId ⟨[], 0⟩ = x at hb
    obtain ⟨_ | _ | _ | _, st⟩ := x
    · simp only [sendUdp] at hb
      cases hsend : udp.send st.sent.length with
      | false => rw [hsend] at hb; cases hb
      | true =>
        rw [hsend] at hb
        simp only [if_true, readAnnounce, readUdp] at hb
        have hbuf : (List.replicate 4000 (0 : UInt8)).length = 4000 := List.length_replicate
        generalize List.replicate 4000 (0 : UInt8) = buf at hb hbuf
        cases hr : udp.recv st.recvs with
        | never => rw [hr] at hb; cases hb
        | failed => rw [hr] at hb; cases hb
        | datagram d =>
          rw [hr] at hb
          simp only [] at hb
          split at hb
          · unfold slice at hb
            split at hb
            · simp only [Res.ok.injEq] at hb
              rw [← hb]
              simp only [List.length_take, List.length_drop, List.length_append]
              omega
            · cases hb
          · cases hb
    · cases hb
    · cases hb
    · cases hb
  have key : ∀ b, (udpCall udp infoHash peerId url).1 = .ok b → b.length ≤ 3980 := by
    intro b hb
    unfold udpCall at hb
    split at hb
    · cases hb
    · split at hb
      · cases hb
      · cases hb
      · split at hb
        · exact key0 b hb
        · cases hb
  generalize udpCall udp infoHash peerId url = x at h key
  obtain ⟨r, st⟩ := x
  cases r with
  | ok b =>
    simp only [Res.mapErr, Res.bind_ok, Res.ok.injEq] at h
    have := key b rfl
    rw [← h, fromBytes_length]
    omega
  | err e => cases h
  | panic => cases h
  | hang => cases h

/-- C97: once a UDP tracker has answered, the peers are tried within 33.15 seconds. (They are tried one after the other in a thread that all trackers
share.) -/
theorem C97_tried (udp : UdpNet) (http : Bytes → HttpGet) (peerId : Bytes) (url : TrackerUrl) (infoHash : Bytes) (peers : List PeerEndpoint)
    (hs : url.scheme = b!"udp") (h : (getPeersByTracker udp http peerId url infoHash).1 = .ok peers) (takes : Nat → Nat) :
    tryMillis takes 0 peers ≤ 33150 := by
  have h1 := udp_peers udp http peerId url infoHash peers hs h
  have h2 := tryMillis_le takes peers 0
  omega

/-- C97: this much time is needed if the tracker names 663 peers or more and none of the first 663 reacts. -/
theorem C97_tried_attained (c header hash peerId host str : Bytes) (port : Nat) (http : Bytes → HttpGet) (xs : List Addr)
    (hh : header.length = 20) (h663 : 663 ≤ xs.length) (hp : ∀ x ∈ xs, x.port < 65536) :
    ∃ peers, (getPeersByTracker (answers c (header ++ xs.flatMap Addr.compact)) http peerId ⟨b!"udp", some host, some port, str⟩ hash).1 = .ok peers ∧
      tryMillis (fun _ => 50) 0 peers = 33150 := by
  obtain ⟨peers, h, hf⟩ := C59_first_663 c header hash peerId host str port http xs hh (by omega) hp
  refine ⟨peers, h, ?_⟩
  have hl := Forall2_length hf
  rw [List.length_take] at hl
  rw [tryMillis_slow _ _ (fun p hp' => ?_)]
  · omega
  · obtain ⟨x, -, -, -, e⟩ := C57_endpoint_parses _ _ _ _ _ peers h p hp'
    rw [e]; rfl

example : 663 ≤ (List.replicate 700 (⟨10, 0, 0, 1, 6881⟩ : Addr)).length ∧ ∀ x ∈ List.replicate 700 (⟨10, 0, 0, 1, 6881⟩ : Addr), x.port < 65536 := by
  refine ⟨by rw [List.length_replicate]; decide, fun x hx => ?_⟩
  rw [(List.mem_replicate.mp hx).2]
  decide

end RustBit
