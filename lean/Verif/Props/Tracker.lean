import Verif.Proofs.Tracker
import Verif.Props.Bencode

/-
C56–C62, C65, C67: trackers.
-/

namespace RustBit
open Spec

/-! ### C56, C57 -/

/-- C56: a byte string made of compact addresses and fewer than six further bytes gives exactly these addresses, in order,
in dotted notation, with their ports. -/
theorem C56_compact_peers (xs : List Addr) (rest : Bytes) (hp : ∀ x ∈ xs, x.port < 65536) (hr : rest.length < 6) :
    Forall2 (fun x (e : PeerEndpoint) => x.IsDotted e.ip ∧ e.port = x.port) xs
      (PeerEndpoint.fromBytes (xs.flatMap Addr.compact ++ rest)) := by
  rw [fromBytes_compact xs rest hp hr]
  exact forall2_map _ _ (fun x _ => ⟨epOf_dotted x, rfl⟩)

/-- C56, the other direction: every byte string is of this form. -/
theorem C56_every_string (bytes : Bytes) : ∃ (xs : List Addr) (rest : Bytes), bytes = xs.flatMap Addr.compact ++ rest ∧
    rest.length < 6 ∧ (∀ x ∈ xs, x.port < 65536) ∧ (PeerEndpoint.fromBytes bytes).length = bytes.length / 6 := by
  obtain ⟨xs, rest, h1, h2, h3⟩ := exists_compact bytes
  refine ⟨xs, rest, h1, h2, h3, ?_⟩
  simp [PeerEndpoint.fromBytes, chunksExact]

/-- Non-vacuity: two peers and a stray byte. -/
example : PeerEndpoint.fromBytes ([(⟨10, 0, 0, 255, 6881⟩ : Addr), ⟨1, 2, 3, 4, 80⟩].flatMap Addr.compact ++ [7]) =
    [⟨b!"10.0.0.255", 6881⟩, ⟨b!"1.2.3.4", 80⟩] := by decide +kernel

/-- C57: every endpoint obtained from a tracker, whatever it answers, parses as the IPv4 socket address it shows. -/
theorem C57_endpoint_parses (udp : UdpNet) (http : Bytes → HttpGet) (peerId : Bytes) (url : TrackerUrl) (infoHash : Bytes)
    (peers : List PeerEndpoint) (h : (getPeersByTracker udp http peerId url infoHash).1 = .ok peers) :
    ∀ p ∈ peers, ∃ x : Addr, x.port < 65536 ∧ x.IsDotted p.ip ∧ p.port = x.port ∧
      parseSocketV4 p.endpoint = some x.numbers := by
  have hb : ∃ b, peers = PeerEndpoint.fromBytes b := by
    unfold getPeersByTracker at h
    split at h
    · cases hc : tcpCall http infoHash peerId url <;> rw [hc] at h <;> cases h
      exact ⟨_, rfl⟩
    · split at h
      · rcases hc : udpCall udp infoHash peerId url with ⟨r, s⟩
        rw [hc] at h
        cases r <;> cases h
        exact ⟨_, rfl⟩
      · cases h
  obtain ⟨b, rfl⟩ := hb
  obtain ⟨xs, rest, rfl, hr, hp⟩ := exists_compact b
  rw [fromBytes_compact xs rest hp hr]
  intro p hp'
  obtain ⟨x, hx, rfl⟩ := List.mem_map.mp hp'
  exact ⟨x, hp x hx, epOf_dotted x, rfl, parse_epOf x (hp x hx)⟩

/-- C57: so connecting to such an endpoint never hits the parse panic. -/
theorem C57_connect_no_panic (udp : UdpNet) (http : Bytes → HttpGet) (peerId : Bytes) (url : TrackerUrl) (infoHash : Bytes)
    (peers : List PeerEndpoint) (h : (getPeersByTracker udp http peerId url infoHash).1 = .ok peers)
    (tcp : List Nat × Nat → Option Net) : ∀ p ∈ peers, dialOf p.endpoint tcp ≠ .unparsable := by
  intro p hp
  obtain ⟨x, -, -, -, e⟩ := C57_endpoint_parses udp http peerId url infoHash peers h p hp
  unfold dialOf
  rw [e]
  simp only []
  cases tcp x.numbers <;> simp

/-- What C57 is about: with an endpoint that does not parse every attempt would panic, whatever the network does; otherwise it is tried at the address it shows. -/
theorem C57_unparsable (endpoint : Bytes) (tcp : List Nat × Nat → Option Net) :
    (parseSocketV4 endpoint = none → (∀ m f peerId infoHash, getInfo m (dialOf endpoint tcp) f peerId infoHash = .panic) ∧
      ∀ sha m f peerId info idx, downloadPiece sha m (dialOf endpoint tcp) f peerId info idx = .panic) ∧
    (∀ a, parseSocketV4 endpoint = some a → dialOf endpoint tcp = match tcp a with | none => .refused | some net => .connected net) := by
  refine ⟨fun h => ?_, fun a h => ?_⟩
  · have e : dialOf endpoint tcp = .unparsable := by rw [dialOf, h]
    rw [e]
    exact ⟨fun _ _ _ _ => rfl, fun _ _ _ _ _ _ => rfl⟩
  · rw [dialOf, h]
    cases ht : tcp a <;> simp [ht]

/-- Non-vacuity: an endpoint that does not parse. -/
example : parseSocketV4 b!"256.2.3.4:80" = none ∧ parseSocketV4 b!"1.2.3.4:80" = some ([1, 2, 3, 4], 80) := by decide +kernel

/-- Non-vacuity: an HTTP tracker that returns one peer. -/
example : (getPeersByTracker ⟨true, fun _ => true, fun _ => true, fun _ => .never⟩ (fun _ => .body (b!"d5:peers6:" ++ [1, 2, 3, 4, 0, 80] ++ b!"e"))
    b!"p" ⟨b!"http", some b!"t", none, b!"http://t/"⟩ b!"h").1 = .ok [⟨b!"1.2.3.4", 80⟩] := by decide +kernel

/-- The parser is not a constant: it rejects e.g. numbers above 255, leading zeros, missing ports. -/
example : parseSocketV4 b!"1.2.3.4:80" = some ([1, 2, 3, 4], 80) ∧ parseSocketV4 b!"256.2.3.4:80" = none ∧
    parseSocketV4 b!"01.2.3.4:80" = none ∧ parseSocketV4 b!"1.2.3.4" = none ∧ parseSocketV4 b!"1.2.3.4:65536" = none := by
  decide +kernel

/-! ### C58, C61 -/

/-- C58: the connect request. -/
theorem C58_connect_request (tid : Bytes) (h : tid.length = 4) :
    (makeConnectionMessage tid).length = 16 ∧ fieldNat (makeConnectionMessage tid) 0 8 = 0x41727101980 ∧
      fieldNat (makeConnectionMessage tid) 8 4 = 0 ∧ FieldAt (makeConnectionMessage tid) 12 tid := by
  refine ⟨by simp [makeConnectionMessage, h], ?_, ?_, ?_⟩
  · rfl
  · rfl
  · unfold FieldAt makeConnectionMessage
    simp [List.take_of_length_le]

/-- C58: the announce request, field by field at the offsets of BEP 15. -/
theorem C58_announce_request (tid cid peerId hash : Bytes) (h1 : tid.length = 4) (h2 : cid.length = 8)
    (h3 : peerId.length = 20) (h4 : hash.length = 20) :
    let m := makeAnnounceMessage tid cid peerId hash
    m.length = 98 ∧ FieldAt m 0 cid ∧ fieldNat m 8 4 = 1 ∧ FieldAt m 12 tid ∧ FieldAt m 16 hash ∧ FieldAt m 36 peerId ∧
      fieldNat m 56 8 = 0 ∧ fieldNat m 64 8 = 0 ∧ fieldNat m 72 8 = 0 ∧ fieldNat m 80 4 = 0 ∧ fieldNat m 84 4 = 0 ∧
      fieldNat m 88 4 = 0 ∧ fieldNat m 92 4 = 2 ^ 32 - 1 ∧ fieldNat m 96 2 = 8000 := by
  match tid, h1 with
  | [t0, t1, t2, t3], _ =>
  match cid, h2 with
  | [c0, c1, c2, c3, c4, c5, c6, c7], _ =>
  match peerId, h3 with
  | [p0, p1, p2, p3, p4, p5, p6, p7, p8, p9, p10, p11, p12, p13, p14, p15, p16, p17, p18, p19], _ =>
  match hash, h4 with
  | [q0, q1, q2, q3, q4, q5, q6, q7, q8, q9, q10, q11, q12, q13, q14, q15, q16, q17, q18, q19], _ =>
  intro m
  refine ⟨?_, ?_, ?_, ?_, ?_, ?_, ?_, ?_, ?_, ?_, ?_, ?_, ?_, ?_⟩ <;> (try unfold FieldAt) <;> rfl

/-- C58 in a run: if the first `j < 4` receives fail, the next one is a connect answer `d` of at least 16 bytes, and sending works, the
messages sent are `j + 1` connect requests and one announce request that echoes bytes 8 to 15 of `d`. -/
theorem C58_run (net : UdpNet) (infoHash peerId : Bytes) (j : Nat) (d : Bytes) (hj : j < 4)
    (hf : ∀ i, i < j → net.recv i = .failed) (hd : net.recv j = .datagram d) (hlen : 16 ≤ d.length) :
    ∃ cid : Bytes, cid.length = 8 ∧ FieldAt d 8 cid ∧
      (udpExchange net infoHash peerId ⟨[], 0⟩).2.sent =
        List.replicate (j + 1) (makeConnectionMessage transactionId) ++ [makeAnnounceMessage transactionId cid peerId infoHash] := by
  refine ⟨(d.take 16).drop 8, by simp; omega, ?_, ?_⟩
  · unfold FieldAt
    rw [List.length_drop, List.length_take, List.drop_take]
    congr 1
    omega
  · obtain ⟨k, -, hs, hr, -, -, h6, -⟩ := connectLoop_spec net (makeConnectionMessage transactionId) 4 ⟨[], 0⟩ (List.replicate 16 0) (by simp)
    obtain ⟨rfl, hres⟩ := h6 j d hj (fun i hi => by simpa using hf i hi) (by simpa using hd)
    unfold udpExchange connectToTracker
    generalize connectLoop net (makeConnectionMessage transactionId) 4 ⟨[], 0⟩ (List.replicate 16 0) = x at hs hr hres
    obtain ⟨r, s⟩ := x
    simp only at hs hr hres
    subst hres
    rw [List.drop_of_length_le (l := List.replicate 16 (0 : UInt8)) (by simp; omega), List.append_nil]
    simp only [sendUdp]
    by_cases hsnd : net.send s.sent.length
    · rw [if_pos hsnd]
      simp only []
      unfold readAnnounce readUdp
      simp only []
      cases net.recv s.recvs with
      | datagram b =>
        simp only []
        split <;> simp [hs]
      | failed => simp [hs]
      | never => simp [hs]
    · rw [if_neg hsnd]
      simp [hs]

/-- Non-vacuity: a run with one failed attempt. -/
example : (udpExchange ⟨true, fun _ => true, fun _ => true, fun i => if i = 0 then .failed else .datagram [0, 0, 0, 0, 0, 1, 25, 158, 1, 2, 3, 4, 5, 6, 7, 8]⟩
    (List.replicate 20 9) (List.replicate 20 7) ⟨[], 0⟩).2.sent.map (fun m => (m.length, m.take 8)) =
    [(16, [0, 0, 4, 23, 39, 16, 25, 128]), (16, [0, 0, 4, 23, 39, 16, 25, 128]), (98, [1, 2, 3, 4, 5, 6, 7, 8])] := by decide +kernel

/-- C61: at least one and at most four connect requests are sent, and nothing else. -/
theorem C61_at_most_four (net : UdpNet) (tid : Bytes) (s : UdpState) :
    ∃ k, 1 ≤ k ∧ k ≤ 4 ∧ (connectToTracker net tid s).2.sent = s.sent ++ List.replicate k (makeConnectionMessage tid) ∧
      (connectToTracker net tid s).2.recvs = s.recvs + k := by
  obtain ⟨k, h1, h2, h3, h4, -⟩ := connectLoop_spec net (makeConnectionMessage tid) 4 s (List.replicate 16 0) (by simp)
  exact ⟨k, h4 (by omega), h1, h2, h3⟩

/-- C61: it succeeds with the first datagram received, whatever the sends do. -/
theorem C61_succeeds (net : UdpNet) (tid : Bytes) (s : UdpState) (j : Nat) (d : Bytes) (hj : j < 4)
    (hf : ∀ i, i < j → net.recv (s.recvs + i) = .failed) (hd : net.recv (s.recvs + j) = .datagram d) :
    (∃ cid : Bytes, cid.length = 8 ∧ (connectToTracker net tid s).1 = .ok cid) ∧
      (connectToTracker net tid s).2.sent = s.sent ++ List.replicate (j + 1) (makeConnectionMessage tid) := by
  obtain ⟨k, -, h2, -, -, -, h6, -⟩ := connectLoop_spec net (makeConnectionMessage tid) 4 s (List.replicate 16 0) (by simp)
  obtain ⟨rfl, hr⟩ := h6 j d hj hf hd
  refine ⟨⟨_, ?_, hr⟩, h2⟩
  simp only [List.length_drop, List.length_append, List.length_take, List.length_replicate]
  omega

/-- C61: it gives up when all four receives fail. -/
theorem C61_gives_up (net : UdpNet) (tid : Bytes) (s : UdpState) (hf : ∀ i, i < 4 → net.recv (s.recvs + i) = .failed) :
    (connectToTracker net tid s).1 = .err .noConnectionEstablished ∧
      (connectToTracker net tid s).2.sent = s.sent ++ List.replicate 4 (makeConnectionMessage tid) := by
  obtain ⟨k, -, h2, -, -, h5, -⟩ := connectLoop_spec net (makeConnectionMessage tid) 4 s (List.replicate 16 0) (by simp)
  obtain ⟨rfl, hr⟩ := h5 hf
  exact ⟨hr, h2⟩

/-- Non-vacuity of the three cases. -/
example : (connectToTracker ⟨true, fun _ => true, fun _ => false, fun i => if i < 3 then .failed else .datagram [1]⟩ transactionId ⟨[], 0⟩).1 =
    .ok [0, 0, 0, 0, 0, 0, 0, 0] ∧
  (connectToTracker ⟨true, fun _ => true, fun _ => true, fun _ => .failed⟩ transactionId ⟨[], 0⟩).2.sent.length = 4 := by decide +kernel

/-- A silent tracker is not given up on: there is no timeout, so if no datagram arrives the call never returns, after a single
request (a receive only fails when the operating system reports an error). -/
theorem C61_silent_tracker_hangs (net : UdpNet) (tid : Bytes) (s : UdpState) (h : net.recv s.recvs = .never) :
    (connectToTracker net tid s).1 = .hang ∧
      (connectToTracker net tid s).2.sent = s.sent ++ [makeConnectionMessage tid] := by
  obtain ⟨k, -, h2, -, -, -, -, h7⟩ := connectLoop_spec net (makeConnectionMessage tid) 4 s (List.replicate 16 0) (by simp)
  obtain ⟨rfl, hr⟩ := h7 0 (by omega) (by omega) h
  exact ⟨hr, h2⟩

/-! ### C59, C60 -/

/-- A tracker that answers the connect request with `c` and the announce request with `d`. -/
def answers (c d : Bytes) : UdpNet := ⟨true, fun _ => true, fun _ => true, fun i => if i = 0 then .datagram c else .datagram d⟩

theorem udpCall_answers (c d hash peerId host : Bytes) (port : Nat) (str : Bytes) :
    (udpCall (answers c d) hash peerId ⟨b!"udp", some host, some port, str⟩).1 =
      if 26 < d.length then .ok ((d.take 4000).drop 20) else .err .wrongResponseSize := by
  unfold udpCall
  simp only [answers, Bool.not_true, if_false, if_true, Bool.false_eq_true, udpExchange]
  obtain ⟨k, -, hs, hr, -, -, h6, -⟩ := connectLoop_spec (answers c d) (makeConnectionMessage transactionId) 4 ⟨[], 0⟩ (List.replicate 16 0) (by simp)
  obtain ⟨rfl, hres⟩ := h6 0 c (by omega) (by omega) rfl
  have e : connectToTracker (answers c d) transactionId ⟨[], 0⟩ =
    (connectLoop (answers c d) (makeConnectionMessage transactionId) 4 ⟨[], 0⟩ (List.replicate 16 0)) := rfl
  simp only [answers] at e hs hr hres
  rw [e]
  generalize connectLoop _ (makeConnectionMessage transactionId) 4 ⟨[], 0⟩ (List.replicate 16 0) = x at hs hr hres
  obtain ⟨r, s⟩ := x
  simp only at hs hr hres
  subst hres
  simp only [sendUdp, if_true]
  exact readAnnounce_datagram _ _ _ (by simp only []; rw [hr]; rfl)

/-- What an announce answer is read as: everything but its length and the bytes from position 20 to 4000 is ignored. -/
theorem getPeers_answers (c d hash peerId host str : Bytes) (port : Nat) (http : Bytes → HttpGet) :
    (getPeersByTracker (answers c d) http peerId ⟨b!"udp", some host, some port, str⟩ hash).1 =
      if 26 < d.length then .ok (PeerEndpoint.fromBytes ((d.take 4000).drop 20)) else .err (.udpTracker .wrongResponseSize) := by
  unfold getPeersByTracker
  rw [if_neg (by simp), if_pos rfl]
  have := udpCall_answers c d hash peerId host port str
  generalize udpCall _ hash peerId _ = x at this
  obtain ⟨r, s⟩ := x
  simp only at this
  subst this
  by_cases h : 26 < d.length
  · rw [if_pos h, if_pos h]; rfl
  · rw [if_neg h, if_neg h]; rfl

theorem compact_length (xs : List Addr) : (xs.flatMap Addr.compact).length = 6 * xs.length := by
  induction xs with
  | nil => rfl
  | cons x xs ih => rw [List.flatMap_cons, List.length_append, ih]; simp [Addr.compact]; omega

theorem compact_take (xs : List Addr) (n : Nat) : (xs.flatMap Addr.compact).take (6 * n) = (xs.take n).flatMap Addr.compact := by
  induction n generalizing xs with
  | zero => rfl
  | succ n ih =>
    cases xs with
    | nil => simp
    | cons x xs =>
      have hx : x.compact.length = 6 := rfl
      rw [List.flatMap_cons, List.take_succ_cons, List.flatMap_cons, ← ih, List.take_append, hx,
        List.take_of_length_le (by omega), Nat.mul_succ, Nat.add_sub_cancel]

/-- The peers read from an answer with the peers `xs`, if there are at least two: the first 663 of them, in order (3980 bytes of the
buffer hold peers). -/
theorem C59_first_663 (c header hash peerId host str : Bytes) (port : Nat) (http : Bytes → HttpGet) (xs : List Addr)
    (hh : header.length = 20) (h2 : 2 ≤ xs.length) (hp : ∀ x ∈ xs, x.port < 65536) :
    ∃ peers, (getPeersByTracker (answers c (header ++ xs.flatMap Addr.compact)) http peerId ⟨b!"udp", some host, some port, str⟩ hash).1
        = .ok peers ∧ Forall2 (fun x (e : PeerEndpoint) => x.IsDotted e.ip ∧ e.port = x.port) (xs.take 663) peers := by
  have hl := compact_length xs
  refine ⟨_, (getPeers_answers _ _ _ _ _ _ _ _).trans (if_pos (by rw [List.length_append, hl]; omega)), ?_⟩
  have e : ((header ++ xs.flatMap Addr.compact).take 4000).drop 20 =
      (xs.take 663).flatMap Addr.compact ++ ((xs.flatMap Addr.compact).drop 3978).take 2 := by
    rw [List.take_append, hh, List.take_of_length_le (by omega), List.drop_append_of_le_length (by omega),
      List.drop_of_length_le (by omega), List.nil_append, ← compact_take,
      show (4000 - 20 : Nat) = 6 * 663 + 2 from rfl, List.take_add]
  rw [e]
  have := C56_compact_peers (xs.take 663) (((xs.flatMap Addr.compact).drop 3978).take 2)
    (fun x hx => hp x (List.mem_of_mem_take hx)) (by rw [List.length_take]; omega)
  exact this

/-- C59 for `n` peers with `2 ≤ n ≤ 663` (663 fill the 4000-byte buffer): all of them are found, in order. Missing: the other numbers
of peers, for which it is false (`C59_exact`). -/
theorem C59_all_peers_partial (c header hash peerId host str : Bytes) (port : Nat) (http : Bytes → HttpGet) (xs : List Addr)
    (hh : header.length = 20) (h2 : 2 ≤ xs.length) (hn : xs.length ≤ 663) (hp : ∀ x ∈ xs, x.port < 65536) :
    ∃ peers, (getPeersByTracker (answers c (header ++ xs.flatMap Addr.compact)) http peerId ⟨b!"udp", some host, some port, str⟩ hash).1
        = .ok peers ∧ Forall2 (fun x (e : PeerEndpoint) => x.IsDotted e.ip ∧ e.port = x.port) xs peers := by
  have := C59_first_663 c header hash peerId host str port http xs hh h2 hp
  rwa [List.take_of_length_le hn] at this

theorem Forall2_length {α β : Type} {R : α → β → Prop} {as : List α} {bs : List β} (h : Forall2 R as bs) : as.length = bs.length := by
  induction h with
  | nil => rfl
  | cons _ _ ih => simp [ih]

/-- C59, exactly: the peers of an answer are all found just if there are 2 to 663 of them. -/
theorem C59_exact (c header hash peerId host str : Bytes) (port : Nat) (http : Bytes → HttpGet) (xs : List Addr)
    (hh : header.length = 20) (hp : ∀ x ∈ xs, x.port < 65536) :
    (∃ peers, (getPeersByTracker (answers c (header ++ xs.flatMap Addr.compact)) http peerId ⟨b!"udp", some host, some port, str⟩ hash).1
        = .ok peers ∧ Forall2 (fun x (e : PeerEndpoint) => x.IsDotted e.ip ∧ e.port = x.port) xs peers) ↔
      2 ≤ xs.length ∧ xs.length ≤ 663 := by
  refine ⟨fun ⟨peers, h, hf⟩ => ?_, fun ⟨h2, hn⟩ => C59_all_peers_partial c header hash peerId host str port http xs hh h2 hn hp⟩
  by_cases h2 : 2 ≤ xs.length
  · obtain ⟨peers', h', hf'⟩ := C59_first_663 c header hash peerId host str port http xs hh h2 hp
    rw [h'] at h
    injection h with h
    subst h
    have h1 := Forall2_length hf
    have h3 := Forall2_length hf'
    rw [List.length_take] at h3
    omega
  · rw [getPeers_answers, if_neg (by rw [List.length_append, compact_length]; omega)] at h
    cases h

/-- Non-vacuity. -/
example : (getPeersByTracker (answers (List.replicate 16 0) (List.replicate 20 0 ++ [(⟨10, 0, 0, 255, 6881⟩ : Addr), ⟨1, 2, 3, 4, 80⟩].flatMap Addr.compact))
    (fun _ => .failed) [] ⟨b!"udp", some b!"h", some 1, []⟩ []).1 = .ok [⟨b!"10.0.0.255", 6881⟩, ⟨b!"1.2.3.4", 80⟩] := by decide +kernel

/-- The full C59 is false: an answer with a single peer (26 bytes) is rejected, whatever the peer. -/
theorem C59_refuted (c header hash peerId host str : Bytes) (port : Nat) (http : Bytes → HttpGet) (x : Addr) (hh : header.length = 20) :
    (getPeersByTracker (answers c (header ++ x.compact)) http peerId ⟨b!"udp", some host, some port, str⟩ hash).1 =
      .err (.udpTracker .wrongResponseSize) := by
  rw [getPeers_answers, if_neg (by rw [List.length_append]; simp [Addr.compact]; omega)]

/-- The full C60 is false: an error answer (action 3) to the announce request with a foreign transaction identifier is read as peers, ... -/
theorem C60_refuted_announce :
    (getPeersByTracker (answers (List.replicate 16 0) ([0, 0, 0, 3] ++ [9, 9, 9, 9] ++ b!"torrent not authorized on this tracker"))
      (fun _ => .failed) [] ⟨b!"udp", some b!"h", some 1, []⟩ []).1 =
      .ok [⟨b!"97.117.116.104", 28530⟩, ⟨b!"105.122.101.100", 8303⟩, ⟨b!"110.32.116.104", 26995⟩, ⟨b!"32.116.114.97", 25451⟩] := by
  decide +kernel

/-- ... and a connect answer that is an error, too short or for a different transaction is taken for a connection identifier. -/
theorem C60_refuted_connect (d : Bytes) (net : UdpNet) (s : UdpState) (h : net.recv s.recvs = .datagram d) :
    (connectToTracker net transactionId s).1 = .ok ((d.take 16 ++ List.replicate (16 - d.length) 0).drop 8) := by
  obtain ⟨k, -, h2, -, -, -, h6, -⟩ := connectLoop_spec net (makeConnectionMessage transactionId) 4 s (List.replicate 16 0) (by simp)
  obtain ⟨rfl, hr⟩ := h6 0 d (by omega) (by omega) h
  rw [List.drop_replicate] at hr
  exact hr

/-- The full C60 is false for every answer: the connect answer `c` and the first 20 bytes of the announce answer - action and transaction
identifier among them - have no influence on the peers found. -/
theorem C60_refuted_blind (c c' header header' peers hash peerId host str : Bytes) (port : Nat) (http : Bytes → HttpGet)
    (h : header.length = 20) (h' : header'.length = 20) :
    (getPeersByTracker (answers c (header ++ peers)) http peerId ⟨b!"udp", some host, some port, str⟩ hash).1 =
      (getPeersByTracker (answers c' (header' ++ peers)) http peerId ⟨b!"udp", some host, some port, str⟩ hash).1 := by
  have key : ∀ k : Bytes, k.length = 20 → ((k ++ peers).take 4000).drop 20 = peers.take 3980 := fun k hk => by
    rw [List.take_append, hk, List.take_of_length_le (by omega), List.drop_append_of_le_length (by omega),
      List.drop_of_length_le (by omega), List.nil_append]
  rw [getPeers_answers, getPeers_answers, List.length_append, List.length_append, h, h', key _ h, key _ h']

/-- C60, exactly: a datagram in the place of the announce answer is read as peers just if it has more than 26 bytes. -/
theorem C60_exact (c d hash peerId host str : Bytes) (port : Nat) (http : Bytes → HttpGet) :
    (∃ peers, (getPeersByTracker (answers c d) http peerId ⟨b!"udp", some host, some port, str⟩ hash).1 = .ok peers) ↔ 26 < d.length := by
  rw [getPeers_answers]
  by_cases h : 26 < d.length
  · rw [if_pos h]; exact ⟨fun _ => h, fun _ => ⟨_, rfl⟩⟩
  · rw [if_neg h]; exact ⟨(fun ⟨_, h'⟩ => by cases h'), fun h' => absurd h' h⟩

/-- C60, what is checked: an announce answer of at most 26 bytes is never read as peers. Missing: everything else. -/
theorem C60_short_answer_partial (net : UdpNet) (s : UdpState) (d : Bytes) (h : net.recv s.recvs = .datagram d) (hd : d.length ≤ 26) :
    (readAnnounce net s).1 = .err .wrongResponseSize := by
  rw [readAnnounce_datagram net s d h, if_neg (by omega)]

example : (readAnnounce (answers [] []) ⟨[], 0⟩).1 = .err .wrongResponseSize := by decide +kernel

/-! ### C62 -/

/-- C62: decoding gives back the bytes. -/
theorem C62_decodes (hash : Bytes) : percentDecode (percentEncode hash) = hash := by
  have := percentDecode_encode hash []
  rwa [List.append_nil, percentDecode, List.append_nil] at this

/-- C62: different hashes have different encodings. -/
theorem C62_injective (a b : Bytes) (h : percentEncode a = percentEncode b) : a = b := by
  rw [← C62_decodes a, ← C62_decodes b, h]

/-- C62: the encoding is the normal form of RFC 3986 (nothing is escaped that need not be, capital digits), and it is the only text in normal form that
stands for the hash. -/
theorem C62_normal (hash s : Bytes) : (NormalEscapes s ∧ percentDecode s = hash) ↔ s = percentEncode hash := by
  constructor
  · rintro ⟨h, rfl⟩
    exact (normal_percentEncode h).symm
  · rintro rfl
    exact ⟨percentEncode_normal hash, C62_decodes hash⟩

example : percentEncode [0x2f, 0x61, 0xab] = b!"%2Fa%AB" := by decide

/-- C62: the encoding consists of letters, digits and `-._~%`, so it contains no path separator (`/`, `\`), no NUL, no URL delimiter
(`?`, `#`, `&`, `=`, space, `+`), and for the hash of a magnet (any hash of more than two bytes) it is not `.` or `..`. -/
theorem C62_safe (hash : Bytes) :
    (∀ b ∈ percentEncode hash, IsAlnum b ∨ b = c!"-" ∨ b = c!"." ∨ b = c!"_" ∨ b = c!"~" ∨ b = c!"%") ∧
      (∀ b ∈ b!"/\\?#&= +:;,\"'", b ∉ percentEncode hash) ∧ 0 ∉ percentEncode hash ∧
      (2 < hash.length → percentEncode hash ≠ [] ∧ percentEncode hash ≠ b!"." ∧ percentEncode hash ≠ b!"..") := by
  have hc := percentEncode_chars hash
  refine ⟨?_, ?_, ?_, ?_⟩
  · intro b hb
    have h := hc b hb
    revert h
    exact byte_forall (p := fun b => urlSafe b = true ∨ b = 37 → IsAlnum b ∨ b = c!"-" ∨ b = c!"." ∨ b = c!"_" ∨ b = c!"~" ∨ b = c!"%")
      (by simp only [IsAlnum]; decide +kernel) b
  · intro b hb hm
    have h := hc b hm
    revert h hb
    exact byte_forall (p := fun b => b ∈ b!"/\\?#&= +:;,\"'" → urlSafe b = true ∨ b = 37 → False) (by decide +kernel) b
  · intro hm
    exact absurd (hc 0 hm) (by decide)
  · intro h
    have hl := (percentEncode_length hash).1
    refine ⟨?_, ?_, ?_⟩ <;> intro e <;> rw [e] at hl <;> simp only [List.length_cons, List.length_nil] at hl <;> omega

/-- Non-vacuity. -/
example : percentEncode [0x12, 0x41, 0x2f, 0xff] = b!"%12A%2F%FF" := by decide +kernel

/-! ### C65 -/

/-- C65: other schemes are refused without any traffic, HTTP trackers get no UDP message and UDP trackers are not fetched. -/
theorem C65_dispatch (udp : UdpNet) (http : Bytes → HttpGet) (peerId : Bytes) (url : TrackerUrl) (infoHash : Bytes) :
    (url.scheme ≠ b!"http" → url.scheme ≠ b!"udp" →
      getPeersByTracker udp http peerId url infoHash = (.err (.protocolNotSupported url.scheme), ⟨[], []⟩)) ∧
    (url.scheme = b!"http" → (getPeersByTracker udp http peerId url infoHash).2 = ⟨[announceUrl url infoHash peerId], []⟩) ∧
    (url.scheme = b!"udp" → (getPeersByTracker udp http peerId url infoHash).2.fetched = []) ∧
    (∀ s, (getPeersByTracker udp http peerId url infoHash).1 = .err (.protocolNotSupported s) →
      s = url.scheme ∧ url.scheme ≠ b!"http" ∧ url.scheme ≠ b!"udp") := by
  unfold getPeersByTracker
  refine ⟨?_, ?_, ?_, ?_⟩
  · intro h1 h2; rw [if_neg h1, if_neg h2]
  · intro h; rw [if_pos h]
  · intro h; rw [h]; rfl
  · intro s hs
    split at hs
    · cases hc : tcpCall http infoHash peerId url <;> rw [hc] at hs <;> cases hs
    · split at hs
      · rcases hc : udpCall udp infoHash peerId url with ⟨r, t⟩
        rw [hc] at hs
        cases r <;> cases hs
      · rename_i h1 h2
        cases hs
        exact ⟨rfl, h1, h2⟩

/-- C65: the torrent is told of exactly the peers whose address accepts a connection when tried, in the order of the answer. -/
theorem C65_forward (udp : UdpNet) (http : Bytes → HttpGet) (tcp : Nat → List Nat × Nat → Bool) (peerId : Bytes)
    (url : TrackerUrl) (infoHash : Bytes) :
    (∀ e, (getPeersByTracker udp http peerId url infoHash).1 = .err e → trackerHandle udp http tcp peerId url infoHash = []) ∧
    ∀ peers, (getPeersByTracker udp http peerId url infoHash).1 = .ok peers →
      ∃ addrs : List Addr, Forall2 (fun x (e : PeerEndpoint) => x.IsDotted e.ip ∧ e.port = x.port ∧ x.port < 65536) addrs peers ∧
        trackerHandle udp http tcp peerId url infoHash =
          (((addrs.zip peers).zipIdx.filter (fun y => tcp y.2 y.1.1.numbers)).map (fun y => y.1.2)) := by
  constructor
  · intro e h
    unfold trackerHandle
    generalize getPeersByTracker udp http peerId url infoHash = x at h
    obtain ⟨r, s⟩ := x
    simp only at h
    subst h
    rfl
  · intro peers h
    have hall := C57_endpoint_parses udp http peerId url infoHash peers h
    have hex : ∃ addrs : List Addr, Forall2 (fun x (e : PeerEndpoint) => x.IsDotted e.ip ∧ e.port = x.port ∧ x.port < 65536 ∧
        parseSocketV4 e.endpoint = some x.numbers) addrs peers := by
      clear h
      induction peers with
      | nil => exact ⟨[], .nil⟩
      | cons p ps ih =>
        obtain ⟨x, h1, h2, h3, h4⟩ := hall p (by simp)
        obtain ⟨xs, hxs⟩ := ih (fun q hq => hall q (List.mem_cons_of_mem _ hq))
        exact ⟨x :: xs, .cons ⟨h2, h3, h1, h4⟩ hxs⟩
    obtain ⟨addrs, ha⟩ := hex
    refine ⟨addrs, forall2_imp ha (fun _ _ h => ⟨h.1, h.2.1, h.2.2.1⟩), ?_⟩
    have hfl : ∀ k, forwardLoop tcp k peers =
        (((addrs.zip peers).zipIdx k).filter (fun y => tcp y.2 y.1.1.numbers)).map (fun y => y.1.2) := by
      clear h hall
      induction ha with
      | nil => intro k; rfl
      | cons hx _ ih =>
        rename_i x p xs ps _
        intro k
        rw [forwardLoop, isReachable, hx.2.2.2, List.zip_cons_cons, List.zipIdx_cons, List.filter_cons]
        simp only []
        by_cases ht : tcp k x.numbers = true
        · rw [if_pos ht, if_pos ht, List.map_cons, ih]
        · rw [if_neg ht, if_neg ht, ih]
    unfold trackerHandle
    generalize getPeersByTracker udp http peerId url infoHash = y at h
    obtain ⟨r, s⟩ := y
    simp only at h
    subst h
    exact hfl 0

/-- Non-vacuity: three peers, the middle one unreachable. -/
example : trackerHandle (answers [] []) (fun _ => .body (b!"d5:peers18:" ++ [1, 2, 3, 4, 0, 80, 1, 2, 3, 5, 0, 80, 1, 2, 3, 6, 0, 80] ++ b!"e"))
    (fun _ a => a ≠ ([1, 2, 3, 5], 80)) b!"p" ⟨b!"http", some b!"t", none, b!"http://t/"⟩ b!"h" =
    [⟨b!"1.2.3.4", 80⟩, ⟨b!"1.2.3.6", 80⟩] := by decide +kernel

/-- The trackers built into the program are all UDP trackers with an IPv4 address and a port. -/
theorem C65_builtin : ∀ u ∈ builtinUrls, u.scheme = b!"udp" ∧ ∃ h p, u.hostStr = some h ∧ u.port = some p ∧
    (parseSocketV4 (h ++ c!":" :: decimal p)).isSome := by
  intro u hu
  obtain ⟨⟨h, p⟩, hm, rfl⟩ := List.mem_map.mp hu
  have : ∀ x ∈ builtinTrackers, (parseSocketV4 (x.1 ++ c!":" :: decimal x.2)).isSome = true := by decide +kernel
  exact ⟨rfl, h, p, rfl, rfl, this _ hm⟩

/-! ### C67 -/

/-- C67: for a tracker URL without query and fragment and a peer id of letters and digits, the query of the URL fetched has exactly the two
parameters `info_hash` and `peer_id`, which decode to the hash and the peer id. Missing: tracker URLs that have a query already (refuted). -/
theorem C67_announce_url_partial (url : TrackerUrl) (infoHash peerId : Bytes) (hq : c!"?" ∉ url.asStr) (hh : c!"#" ∉ url.asStr)
    (hp : ∀ b ∈ peerId, IsAlnum b) :
    queryParams (announceUrl url infoHash peerId) = [(b!"info_hash", infoHash), (b!"peer_id", peerId)] ∧
      ∃ q, announceUrl url infoHash peerId = url.asStr ++ c!"?" :: q := by
  have hsafe := (C62_safe infoHash).2.1
  have hid : ∀ b ∈ peerId, b ≠ 38 ∧ b ≠ 35 ∧ b ≠ 61 ∧ b ≠ 37 := fun b hb =>
    byte_forall (p := fun b => IsAlnum b → b ≠ 38 ∧ b ≠ 35 ∧ b ≠ 61 ∧ b ≠ 37) (by simp only [IsAlnum]; decide +kernel) b (hp b hb)
  have hpd : percentDecode peerId = peerId := by
    clear hp
    induction peerId with
    | nil => simp [percentDecode]
    | cons b t ih =>
      rw [percentDecode_other _ _ (hid b (by simp)).2.2.2, ih (fun c hc => hid c (List.mem_cons_of_mem _ hc))]
  have e : announceUrl url infoHash peerId = url.asStr ++ c!"?" :: (b!"info_hash" ++ c!"=" :: percentEncode infoHash ++
      c!"&" :: (b!"peer_id" ++ c!"=" :: peerId)) := by
    simp [announceUrl]
  refine ⟨?_, ⟨_, e⟩⟩
  have h1 : c!"#" ∉ announceUrl url infoHash peerId := by
    rw [e]
    simp only [List.mem_append, List.mem_cons, not_or]
    refine ⟨hh, by decide, ⟨by decide, by decide, hsafe _ (by decide)⟩, by decide, by decide, by decide, ?_⟩
    intro hm; exact (hid _ hm).2.1 rfl
  unfold queryParams
  rw [cutAt_none _ _ h1, e]
  simp only []
  rw [cutAt_append _ _ _ hq]
  simp only []
  rw [splitAll_append, splitAll_none]
  · simp only [List.map_cons, List.map_nil]
    rw [cutAt_append _ b!"info_hash" _ (by decide), cutAt_append _ b!"peer_id" _ (by decide)]
    simp only [Option.getD_some, C62_decodes, hpd]
    have d1 : percentDecode b!"info_hash" = b!"info_hash" := by simp [percentDecode]
    have d2 : percentDecode b!"peer_id" = b!"peer_id" := by simp [percentDecode]
    rw [d1, d2]
  · simp only [List.mem_append, List.mem_cons, not_or]
    refine ⟨by decide, by decide, ?_⟩
    intro hm; exact (hid _ hm).1 rfl
  · simp only [List.mem_append, List.mem_cons, not_or]
    exact ⟨by decide, by decide, hsafe _ (by decide)⟩

/-- Non-vacuity. -/
example : announceUrl ⟨b!"http", some b!"t", none, b!"http://t/a"⟩ [0xff, 0x41] b!"abc" = b!"http://t/a?info_hash=%FFA&peer_id=abc" := by
  decide +kernel

/-- C67 is false for a tracker URL with a query, e.g. a passkey: there is no `info_hash` parameter then. -/
theorem C67_refuted_query : (queryParams (announceUrl ⟨b!"http", some b!"t", none, b!"http://t/a?k=1"⟩ b!"hash" b!"abc")).map Prod.fst =
    [b!"k", b!"peer_id"] := by
  have e : announceUrl ⟨b!"http", some b!"t", none, b!"http://t/a?k=1"⟩ b!"hash" b!"abc" = b!"http://t/a?k=1?info_hash=hash&peer_id=abc" := by
    decide +kernel
  rw [e]
  simp [queryParams, cutAt, splitAll, percentDecode]

/-- C67: peers come only from a body that was read to its end and decodes to a dictionary with a string for `peers`; nothing else is a success. -/
theorem C67_only (http : Bytes → HttpGet) (infoHash peerId : Bytes) (url : TrackerUrl) (peers : Bytes)
    (h : tcpCall http infoHash peerId url = .ok peers) :
    ∃ b kvs p, http (announceUrl url infoHash peerId) = .body b ∧ Decoder.decode b = .ok (.dictionary kvs, p) ∧
      mapGet kvs b!"peers" = some (.string peers) := by
  unfold tcpCall at h
  cases hh : http (announceUrl url infoHash peerId) with
  | failed => rw [hh] at h; cases h
  | broken => rw [hh] at h; cases h
  | body b =>
    rw [hh] at h
    simp only [] at h
    cases hd : Decoder.decode b with
    | ok x =>
      obtain ⟨m, p⟩ := x
      rw [hd] at h
      simp only [Res.mapErr_ok, Res.bind_ok] at h
      cases m with
      | dictionary d =>
        simp only [Metainfo.getBytesFromDict, Metainfo.getDictContent, Res.bind_ok] at h
        cases hm : mapGet d b!"peers" with
        | none => rw [hm] at h; cases h
        | some v =>
          rw [hm] at h
          cases v with
          | string x =>
            cases h
            exact ⟨b, d, p, rfl, hd, hm⟩
          | _ => cases h
      | _ => cases h
    | err e => rw [hd] at h; cases h
    | panic => rw [hd] at h; cases h
    | hang => rw [hd] at h; cases h

/-- C67: the compact peer string of an answer that the decoder supports is returned unchanged, whatever else the answer contains and whatever
follows it. Missing: unsupported values elsewhere in the answer (refuted). -/
theorem C67_answer_partial (http : Bytes → HttpGet) (infoHash peerId : Bytes) (url : TrackerUrl) (d : List (Bytes × BVal))
    (doc rest peers : Bytes) (hdoc : IsBencode (.dict d) doc) (hr : Spec.Readable (.dict d)) (hp : lastFor b!"peers" d = some (.str peers))
    (hh : http (announceUrl url infoHash peerId) = .body (doc ++ rest)) :
    tcpCall http infoHash peerId url = .ok peers := by
  have hd := decodeAt_doc hdoc hr (c := doc ++ rest) (p := 0) (rest := rest) (by simp)
  unfold tcpCall
  rw [hh]
  simp only []
  rw [show Decoder.decode (doc ++ rest) = _ from hd]
  simp only [Res.mapErr_ok, Res.bind_ok, meaning, Metainfo.getBytesFromDict, Metainfo.getDictContent]
  rw [mapGet_meaningEntries, hp]
  rfl

/-- Non-vacuity: an answer with an interval. -/
example : tcpCall (fun _ => .body b!"d8:intervali900e5:peers6:abcdefe") [] [] ⟨[], none, none, []⟩ = .ok b!"abcdef" := by decide +kernel

/-- The full C67 is false: a valid answer with a list holding an empty string makes the call hang; one with a negative number is refused. -/
theorem C67_refuted_answer :
    IsBencode (.dict [(b!"peers", .str b!"abcdef"), (b!"x", .list [.str []])]) b!"d5:peers6:abcdef1:xl0:ee" ∧
    tcpCall (fun _ => .body b!"d5:peers6:abcdef1:xl0:ee") [] [] ⟨[], none, none, []⟩ = .hang ∧
    tcpCall (fun _ => .body b!"d5:peers6:abcdef1:xi-1ee") [] [] ⟨[], none, none, []⟩ = .err (.decoder (.badNumberDecode [])) := by
  refine ⟨?_, by decide +kernel, by decide +kernel⟩
  have h : IsBencode (.dict [(b!"peers", .str b!"abcdef"), (b!"x", .list [.str []])])
      (100 :: (b!"5:peers" ++ b!"6:abcdef" ++ (b!"1:x" ++ (108 :: (b!"0:" ++ []) ++ [101]) ++ [])) ++ [101]) :=
    .dict (.cons (isStr_of_eq rfl) (.str (isStr_of_eq rfl)) (.cons (isStr_of_eq rfl) (.list (.cons (.str (isStr_of_eq rfl)) .nil)) .nil))
  exact h

end RustBit
