/-
Properties C31 - C34, C36, C38: opening a connection and downloading over it, for every schedule.
-/
import Verif.Proofs.Download

namespace RustBit
open Spec

/-- A schedule delivering the given bytes, one segment per system call, then nothing. -/
def script (segs : List Bytes) : Net := fun t => ⟨segs.getD t [], .up⟩

/-- A new connection to a peer, as made by `get_info` and `download` (src/peer/manager.rs:31-32, 61-63). -/
def freshPeer (hash peerId : Bytes) : Peer := Peer.new ⟨[], 0⟩ hash peerId

/-! ### C31 -/

/-- C31: if `init_peer` succeeds then the first thing received was a handshake with the requested info
hash, the peer is not choking, and it announced a non-zero metadata size; the only things written were
the handshake (to a peer that had not said anything yet), "interested" and the extension handshake. -/
theorem C31_ready (net : Net) (hash peerId : Bytes) (p : Peer)
    (h : initPeer net (freshPeer hash peerId) = (.ok (), p)) :
    choking true p.log = false ∧ announcedSize 0 p.log ≠ 0 ∧ p.infoHash = hash ∧
    ∃ (m : Message) (x : HandshakeMessage) (gots : List Message),
      p.log = .sent (newHandshake hash peerId).asBytes :: .got m :: .sent newInterested.asBytes ::
        .sent extensionHandshakeBytes :: gots.map .got ∧
      m.content = .handshake x ∧ x.infoHash = hash := by
  obtain ⟨new, ht, -, hok⟩ := initPeer_history net (freshPeer hash peerId) rfl
  rw [h] at ht hok
  obtain ⟨hr, m, x, gots, he, hc, hx⟩ := hok rfl
  have hl : p.log = new := by rw [ht.log]; rfl
  simp only [Peer.isReady, Bool.and_eq_true, decide_eq_true_eq, Bool.not_eq_true'] at hr
  refine ⟨?_, ?_, ht.hash, m, x, gots, by rw [hl, he]; rfl, hc, hx⟩
  · rw [hl]; have := ht.choked; rw [hr.2] at this; exact this.symm
  · rw [hl]; have := ht.size; rw [this] at hr; exact hr.1

/-- C31: whatever the outcome, nothing but the three opening messages is written. -/
theorem C31_no_request (net : Net) (hash peerId : Bytes) :
    written (initPeer net (freshPeer hash peerId)).2.log <+:
      [(newHandshake hash peerId).asBytes, newInterested.asBytes, extensionHandshakeBytes] := by
  obtain ⟨new, ht, hw, -⟩ := initPeer_history net (freshPeer hash peerId) rfl
  have hl : (initPeer net (freshPeer hash peerId)).2.log = new := by rw [ht.log]; rfl
  rw [hl]
  exact hw

/-- A handshake for the given info hash. -/
def sampleHandshake (hash : Bytes) : Bytes := (newHandshake hash (List.replicate 20 9)).asBytes

/-- The extension handshake of a peer with 5 bytes of metadata. -/
def sampleExtension (size : Bytes) : Bytes :=
  let d := b!"d1:md11:ut_metadatai3ee13:metadata_sizei" ++ size ++ b!"ee"
  beU32 (d.length + 2) ++ 20 :: 0 :: d

def sampleUnchoke : Bytes := [0, 0, 0, 1, 1]

/-- Non-vacuity: a peer that sends handshake, extension handshake and unchoke at once. -/
theorem sample_ready : ∃ p, initPeer (script [sampleHandshake (List.replicate 20 7) ++ sampleExtension b!"5" ++
      sampleUnchoke]) (freshPeer (List.replicate 20 7) (List.replicate 20 1)) = (.ok (), p) := by
  have h : (initPeer (script [sampleHandshake (List.replicate 20 7) ++ sampleExtension b!"5" ++
      sampleUnchoke]) (freshPeer (List.replicate 20 7) (List.replicate 20 1))).1 = .ok () := by decide +kernel
  exact ⟨_, by rw [← h]⟩

/-! ### C32 -/

theorem eachWrite_append {Q : List Ev → Bytes → Prop} {a b : List Ev} (ha : EachWrite Q a)
    (hb : EachWrite (fun pre x => Q (a ++ pre) x) b) : EachWrite Q (a ++ b) := by
  intro pre x post e
  rcases List.append_eq_append_iff.mp e with ⟨as, h1, h2⟩ | ⟨bs, h1, h2⟩
  · rw [h1]; exact hb as x post h2
  · cases bs with
    | nil =>
      simp only [List.append_nil, List.nil_append] at h1 h2
      have := hb [] x post (by simp [h2])
      simpa [h1] using this
    | cons y t =>
      simp only [List.cons_append, List.cons.injEq] at h2
      exact ha pre x t (by rw [h1, h2.1])

theorem eachWrite_of_few {Q : List Ev → Bytes → Prop} {log : List Ev} {k : Nat}
    (h : (written log).length ≤ k) (hq : ∀ pre x, (written pre).length < k → Q pre x) : EachWrite Q log := by
  intro pre x post e
  apply hq
  rw [e, written_append] at h
  simp [written] at h
  simp [written]
  omega

/-- The history of any download of something over a fresh connection. -/
theorem full_history (m : Build) (net : Net) (d : Downloadable) (f : Nat) (hash peerId : Bytes) :
    let r := initPeer net (freshPeer hash peerId)
    EachWrite (fun pre _ => (written pre).length < 3 ∨ choking true pre = false) r.2.log ∧
    (r.1 = .ok () → EachWrite (fun pre _ => (written pre).length < 3 ∨ choking true pre = false)
      (d.download m net f r.2).2.log) := by
  intro r
  obtain ⟨new, ht, hw, hok⟩ := initPeer_history net (freshPeer hash peerId) rfl
  have hl : r.2.log = new := by show (initPeer net (freshPeer hash peerId)).2.log = _; rw [ht.log]; rfl
  have h3 : (written new).length ≤ 3 := hw.length_le
  have h1 : EachWrite (fun pre _ => (written pre).length < 3 ∨ choking true pre = false) new :=
    eachWrite_of_few h3 (fun pre x hx => .inl hx)
  refine ⟨by rw [hl]; exact h1, fun hr => ?_⟩
  rcases download_history m net d f r.2 with ⟨cap, new', -, hend⟩ | ⟨hp, -⟩
  · rw [hend.log, hl]
    refine eachWrite_append h1 (eachWrite_imp hend.writes ?_)
    intro pre x post _ hq
    right
    rw [choking_append]
    have hc : choking true new = r.2.choked := ht.choked.symm
    rw [hc]
    exact hq.1
  · rw [hp, hl]; exact h1

/-- C32: in every download of a piece or of metadata, and whatever its outcome, when a message other than the three
opening ones is written the last choke/unchoke message received was an unchoke. -/
theorem C32_unchoked (sha : Bytes → Bytes) (m : Build) (net : Net) (f : Nat) (peerId hash : Bytes)
    (info : Info) (idx : Nat) :
    EachWrite (fun pre _ => (written pre).length < 3 ∨ choking true pre = false)
      (downloadRun sha m net f peerId info idx).2.log ∧
    EachWrite (fun pre _ => (written pre).length < 3 ∨ choking true pre = false)
      (getInfoRun m net f peerId hash).2.log := by
  constructor
  · have hinit := fun d => full_history m net d f (info.computeInfoHash sha) peerId
    simp only [freshPeer] at hinit
    unfold downloadRun
    generalize initPeer net (Peer.new ⟨[], 0⟩ (info.computeInfoHash sha) peerId) = r at hinit
    obtain ⟨r1, p⟩ := r
    cases r1 with
    | ok u =>
      simp only []
      cases ht : (info.getTotalLength m : Res PeerManagerError Nat) with
      | ok total =>
        have hd := (hinit (.block info.pieceLength idx total)).2 rfl
        simp only []
        generalize (Downloadable.block info.pieceLength idx total).download m net f p = q at hd
        obtain ⟨q1, q2⟩ := q
        cases q1 <;> exact hd
      | err e => exact (hinit .info).1
      | panic => exact (hinit .info).1
      | hang => exact (hinit .info).1
    | err e => exact (hinit .info).1
    | panic => exact (hinit .info).1
    | hang => exact (hinit .info).1
  · have hinit := full_history m net .info f hash peerId
    simp only [freshPeer] at hinit
    unfold getInfoRun
    generalize initPeer net (Peer.new ⟨[], 0⟩ hash peerId) = r at hinit
    obtain ⟨r1, p⟩ := r
    cases r1 with
    | ok u =>
      have hd := hinit.2 rfl
      simp only []
      generalize Downloadable.info.download m net f p = q at hd
      obtain ⟨q1, q2⟩ := q
      cases q1 <;> exact hd
    | err e => exact hinit.1
    | panic => exact hinit.1
    | hang => exact hinit.1

/-- C32: a choke processed during the transfer is the last thing that happens, and the result is an error. -/
theorem C32_choke_ends (m : Build) (net : Net) (d : Downloadable) (f : Nat) (p : Peer) (cap : Nat)
    (hcap : 0 < cap) : ∃ new, (execute m net d f p cap).2.log = p.log ++ new ∧
      ∀ pre x post, new = pre ++ .got x :: post → x.id = 0 →
        post = [] ∧ (execute m net d f p cap).1 = .err .chokedPeer := by
  obtain ⟨new, h⟩ := execute_history m net d f p cap
  exact ⟨new, h.log, fun pre x post e hx => h.choke pre x post e hx hcap⟩

/-- A peer that is ready, with nothing received yet. -/
def readyPeer : Peer :=
  { freshPeer (List.replicate 20 7) (List.replicate 20 1) with choked := false, active := true, metadataSize := 5, extensions := [(b!"ut_metadata", 3)] }

/-- Non-vacuity: a choke arrives after the first request. -/
example : (execute .release (script [[], [], [], [0, 0, 0, 1, 0]]) (.block 32768 0 32768) 9 readyPeer 2).1 =
    .err .chokedPeer ∧
    (written (execute .release (script [[], [], [], [0, 0, 0, 1, 0]]) (.block 32768 0 32768) 9 readyPeer 2).2.log).length = 1 := by
  decide +kernel

/-! ### C33 -/

/-- C33, what holds for every peer: when a request is written, the number of answers received so far is at
least the number of requests written so far (so at most one request is outstanding), and the request
is for the block with that number. -/
theorem C33_next_block_partial (m : Build) (net : Net) (pl idx total f cap : Nat) (p : Peer) :
    ∃ new, (execute m net (.block pl idx total) f p cap).2.log = p.log ++ new ∧
      EachWrite (fun pre x =>
        let got := (received (isAnswer (.block pl idx total)) pre).length
        (written pre).length ≤ got ∧ got < cap ∧
        ∃ msg, (blockRequest m pl idx total got : Res DownloadableError Message) = .ok msg ∧ x = msg.asBytes) new := by
  obtain ⟨new, h⟩ := execute_history m net (.block pl idx total) f p cap
  refine ⟨new, h.log, eachWrite_imp h.writes ?_⟩
  intro pre x post e hq
  have hw : received (Downloadable.messageFilter (.block pl idx total)) pre =
      received (isAnswer (.block pl idx total)) pre :=
    received_congr (fun m' hm => filter_eq_isAnswer _ (h.wire m' (by rw [e]; simp [hm])))
  obtain ⟨-, h2, -, h4, q, msg, h5, h6⟩ := hq
  rw [hw] at h2 h4 h5
  exact ⟨h2, h4, msg, h5, h6⟩

/-- C33 for peers that do not send a block before the first request: the k-th request written is for
block k, so blocks are requested in the order 0, 1, 2, ..., each once. Missing: peers that start with
an unsolicited block (refuted below). -/
theorem C33_in_order_partial (m : Build) (net : Net) (pl idx total f cap : Nat) (p : Peer) :
    ∃ new, (execute m net (.block pl idx total) f p cap).2.log = p.log ++ new ∧
      ((∀ x t, new = .got x :: t → isAnswer (.block pl idx total) x = false) →
        ∀ (k : Nat) (x : Bytes), (written new)[k]? = some x →
          ∃ msg, (blockRequest m pl idx total k : Res DownloadableError Message) = .ok msg ∧ x = msg.asBytes) := by
  obtain ⟨new, h⟩ := execute_history m net (.block pl idx total) f p cap
  refine ⟨new, h.log, fun hs => ?_⟩
  have hsol : Solicited (.block pl idx total) new := by
    intro x t e
    rw [filter_eq_isAnswer _ (h.wire x (by rw [e]; simp))]
    exact hs x t e
  intro k x hk
  have hsplit : ∀ (log : List Ev) (k : Nat), (written log)[k]? = some x →
      ∃ pre post, log = pre ++ .sent x :: post ∧ (written pre).length = k := by
    intro log
    induction log with
    | nil => intro k hk; simp [written] at hk
    | cons e t ih =>
      intro k hk
      cases e with
      | got y =>
        obtain ⟨pre, post, h1, h2⟩ := ih k (by simpa [written] using hk)
        exact ⟨.got y :: pre, post, by simp [h1], by simpa [written] using h2⟩
      | sent y =>
        cases k with
        | zero =>
          have : y = x := by simpa [written] using hk
          subst this
          exact ⟨[], t, rfl, rfl⟩
        | succ k =>
          obtain ⟨pre, post, h1, h2⟩ := ih k (by simpa [written] using hk)
          refine ⟨.sent y :: pre, post, by simp [h1], ?_⟩
          simpa [written] using h2
  obtain ⟨pre, post, e, hl⟩ := hsplit new k hk
  obtain ⟨-, -, h3, -, q, msg, h5, h6⟩ := h.writes pre x post e
  have hsp : Solicited (.block pl idx total) pre := by rw [e] at hsol; exact hsol.prefix
  rw [← h3 hsp, hl] at h5
  exact ⟨msg, h5, h6⟩

/-- A block message (id 7). -/
def blockMessage (idx off : Nat) (data : Bytes) : Bytes :=
  beU32 (data.length + 9) ++ 7 :: (beU32 idx ++ beU32 off ++ data)

/-- Non-vacuity: two blocks requested and answered in turn. -/
example : (execute .release (script [[], [], [], blockMessage 0 0 [1], [], [], [], [], [], [], [], blockMessage 0 16384 [2]])
      (.block 32768 0 32768) 9 readyPeer 2).1 = .ok [1, 2] := by decide +kernel

/-- The full C33 is false: after one unsolicited block message, block 0 is never requested and block 1
twice. -/
theorem C33_refuted : ∃ (net : Net) (p : Peer),
    written (execute .release net (.block 49152 0 49152) 5 p 3).2.log =
      [(newRequest 0 16384 16384).asBytes, (newRequest 0 16384 16384).asBytes] :=
  ⟨script [blockMessage 0 0 [1]], readyPeer, by decide +kernel⟩

/-! ### C34 -/

theorem stepByLen_spec {ε : Type} (n b : Nat) (hb : 0 < b) : (stepByLen n b : Res ε Nat) = .ok ((n + b - 1) / b) := by
  unfold stepByLen
  rw [if_neg (by omega), show n + (b - 1) = n + b - 1 by omega]

theorem realPieceLength_eq {ε : Type} (m : Build) (pl idx total : Nat) (hin : idx * pl < total)
    (ho : pl * (idx + 1) < 2 ^ 64) (hi : idx < 2 ^ 32) :
    (realPieceLength m pl idx total : Res ε Nat) = .ok (pieceSize pl idx total) := by
  have h1 : (uadd m idx 1 : Res ε Nat) = .ok (idx + 1) := by unfold uadd; rw [if_pos (by omega)]
  have h2 : (umul m pl (idx + 1) : Res ε Nat) = .ok (pl * (idx + 1)) := by unfold umul; rw [if_pos ho]
  have hle : pl * idx ≤ pl * (idx + 1) := Nat.mul_le_mul_left _ (by omega)
  have h3 : (umul m pl idx : Res ε Nat) = .ok (pl * idx) := by unfold umul; rw [if_pos (by omega)]
  have hc : pl * idx = idx * pl := Nat.mul_comm _ _
  have hs : pl * (idx + 1) = pl * idx + pl := by rw [Nat.mul_add, Nat.mul_one]
  have h4 : (usub m total (pl * idx) : Res ε Nat) = .ok (total - pl * idx) := by
    unfold usub; rw [if_pos (by omega)]
  unfold realPieceLength pieceSize
  simp only [h1, h2, Res.bind_ok]
  by_cases hgt : pl * (idx + 1) > total
  · simp only [hgt, if_true, h3, Res.bind_ok, h4, Res.ok.injEq]
    omega
  · simp only [hgt, if_false, Res.ok.injEq]
    omega

/-- The request for block `i`, when nothing overflows. -/
theorem blockRequest_eq {ε : Type} (m : Build) (pl idx total i : Nat) (hin : idx * pl + i * 16384 ≤ total)
    (ht : total < 2 ^ 64) :
    (blockRequest m pl idx total i : Res ε Message) =
      .ok (newRequest (idx % 2 ^ 32) (i * 16384 % 2 ^ 32) (min (total - (i * 16384 + idx * pl)) 16384 % 2 ^ 32)) := by
  have h1 : (umul m i BLOCK_SIZE : Res ε Nat) = .ok (i * 16384) := by
    unfold umul BLOCK_SIZE; rw [if_pos (by omega)]
  have h2 : (umul m idx pl : Res ε Nat) = .ok (idx * pl) := by unfold umul; rw [if_pos (by omega)]
  have h3 : (uadd m (i * 16384) (idx * pl) : Res ε Nat) = .ok (i * 16384 + idx * pl) := by
    unfold uadd; rw [if_pos (by omega)]
  have h4 : (usub m total (i * 16384 + idx * pl) : Res ε Nat) = .ok (total - (i * 16384 + idx * pl)) := by
    unfold usub; rw [if_pos (by omega)]
  unfold blockRequest getBlockSize
  simp only [h1, h2, h3, h4, Res.bind_ok]
  rfl

/-- The ranges into which a piece of `size` bytes is cut. -/
def blockRanges (size : Nat) : List (Nat × Nat) :=
  (List.range ((size + 16383) / 16384)).map fun i => (i * 16384, min (size - i * 16384) 16384)

theorem tiles_from (size k : Nat) : ∀ i, k + i = (size + 16383) / 16384 →
    Tiles ((List.range' i k).map fun j => (j * 16384, min (size - j * 16384) 16384)) (min size (i * 16384)) size := by
  induction k with
  | zero => intro i h; simp only [List.range'_zero, List.map_nil, Tiles]; omega
  | succ k ih =>
    intro i h
    rw [List.range'_succ, List.map_cons, Tiles]
    have := ih (i + 1) (by omega)
    refine ⟨by omega, by omega, by omega, ?_⟩
    rw [show i * 16384 + min (size - i * 16384) 16384 = min size ((i + 1) * 16384) by omega]
    exact this

theorem blockRanges_tiles (size : Nat) : Tiles (blockRanges size) 0 size := by
  have := tiles_from size ((size + 16383) / 16384) 0 (by omega)
  rw [← List.range_eq_range'] at this
  simpa [blockRanges] using this

/-- C34 for torrents whose piece length is a multiple of 16384, and for the last piece of any torrent:
the requests are for consecutive ranges that tile the piece. Missing: other pieces of torrents
with another piece length (refuted below), pieces of 2^32 bytes and more. -/
theorem C34_tiling_partial (m : Build) (pl idx total : Nat) (p : Peer) (hin : idx * pl < total)
    (hm : pl % 16384 = 0 ∨ total ≤ (idx + 1) * pl)
    (ho : pl * (idx + 1) < 2 ^ 64) (ht : total < 2 ^ 64) (hi : idx < 2 ^ 32)
    (hsz : pieceSize pl idx total < 2 ^ 32) :
    ∃ ranges : List (Nat × Nat), Tiles ranges 0 (pieceSize pl idx total) ∧
      ((Downloadable.block pl idx total).capacity m p : Res DownloadableError Nat) = .ok ranges.length ∧
      ∀ i o l, ranges[i]? = some (o, l) →
        ∃ msg, (blockRequest m pl idx total i : Res DownloadableError Message) = .ok msg ∧
          IsBlockRequest idx o l msg.asBytes := by
  refine ⟨blockRanges (pieceSize pl idx total), blockRanges_tiles _, ?_, ?_⟩
  · simp only [Downloadable.capacity, realPieceLength_eq m pl idx total hin ho hi, Res.bind_ok]
    rw [stepByLen_spec _ _ (by decide)]
    simp [blockRanges, BLOCK_SIZE]
  · intro i o l hr
    have hsize : pieceSize pl idx total = min pl (total - idx * pl) := rfl
    have hmul : (idx + 1) * pl = idx * pl + pl := by rw [Nat.add_mul, Nat.one_mul]
    generalize hS : pieceSize pl idx total = S at *
    generalize hP : idx * pl = P at *
    rw [blockRanges, List.getElem?_map, Option.map_eq_some_iff] at hr
    obtain ⟨j, hj, hr⟩ := hr
    obtain ⟨hlt, hj⟩ := List.getElem?_eq_some_iff.mp hj
    simp only [List.length_range] at hlt
    simp only [List.getElem_range] at hj
    subst hj
    simp only [Prod.mk.injEq] at hr
    obtain ⟨rfl, rfl⟩ := hr
    have hlen : min (total - (i * 16384 + P)) 16384 = min (S - i * 16384) 16384 := by omega
    refine ⟨_, blockRequest_eq m pl idx total i (by omega) ht, ?_⟩
    rw [hP, hlen, Nat.mod_eq_of_lt hi, Nat.mod_eq_of_lt (by omega : i * 16384 < 2 ^ 32),
      Nat.mod_eq_of_lt (by omega : min (S - i * 16384) 16384 < 2 ^ 32)]
    exact ⟨_, _, _, isU32_beU32 _ hi, isU32_beU32 _ (by omega), isU32_beU32 _ (by omega), beU32 13,
      isU32_beU32 13 (by decide), rfl⟩

/-- Non-vacuity: a middle piece and a short last piece. -/
example : 1 * 32768 < 100000 ∧ 32768 % 16384 = 0 ∧ 32768 * (1 + 1) < 2 ^ 64 ∧ pieceSize 32768 1 100000 < 2 ^ 32 := by
  decide

example : 1 * 60000 < 100000 ∧ 100000 ≤ (1 + 1) * 60000 ∧ pieceSize 60000 1 100000 = 40000 := by decide

/-- The full C34 is false for every piece, other than the last one, of a torrent whose piece length is not a
multiple of 16384 (and followed by enough data): the last block requested reaches beyond the
end of the piece. -/
theorem C34_refuted_overrun (m : Build) (pl idx total : Nat) (p : Peer) (hpl : pl % 16384 ≠ 0)
    (hnl : (idx + 1) * pl < total) (ht : total < 2 ^ 64) (hi : idx < 2 ^ 32) (hp32 : pl < 2 ^ 32) :
    ∃ n o l msg, ((Downloadable.block pl idx total).capacity m p : Res DownloadableError Nat) = .ok (n + 1) ∧
      (blockRequest m pl idx total n : Res DownloadableError Message) = .ok msg ∧
      IsBlockRequest idx o l msg.asBytes ∧ pieceSize pl idx total < o + l := by
  have hmul : (idx + 1) * pl = idx * pl + pl := by rw [Nat.add_mul, Nat.one_mul]
  have hmul' : pl * (idx + 1) = (idx + 1) * pl := Nat.mul_comm _ _
  have hsize : pieceSize pl idx total = min pl (total - idx * pl) := rfl
  have hcap := realPieceLength_eq (ε := DownloadableError) m pl idx total (by omega) (by omega) hi
  generalize hS : pieceSize pl idx total = S at *
  generalize hP : idx * pl = P at *
  have hSpl : S = pl := by omega
  refine ⟨pl / 16384, pl / 16384 * 16384, min (total - (pl / 16384 * 16384 + P)) 16384, _, ?_,
    blockRequest_eq m pl idx total (pl / 16384) (by omega) ht, ?_, by omega⟩
  · simp only [Downloadable.capacity, hcap, Res.bind_ok]
    rw [stepByLen_spec _ _ (by decide), hSpl, Res.ok.injEq]
    simp only [BLOCK_SIZE]
    omega
  · rw [hP, Nat.mod_eq_of_lt hi, Nat.mod_eq_of_lt (by omega : pl / 16384 * 16384 < 2 ^ 32),
      Nat.mod_eq_of_lt (by omega : min (total - (pl / 16384 * 16384 + P)) 16384 < 2 ^ 32)]
    exact ⟨_, _, _, isU32_beU32 _ hi, isU32_beU32 _ (by omega), isU32_beU32 _ (by omega), beU32 13,
      isU32_beU32 13 (by decide), rfl⟩

example : 20000 % 16384 ≠ 0 ∧ (0 + 1) * 20000 < 100000 := by decide

/-- C34 (and C24): for a piece index beyond the end of the torrent the computation of the block size
underflows: a panic in a debug build. -/
theorem C34_refuted_beyond_end (pl idx total : Nat) (p : Peer) (h : total < idx * pl)
    (ho : pl * (idx + 1) < 2 ^ 64) (hi : idx < 2 ^ 32) :
    ((Downloadable.block pl idx total).capacity .debug p : Res DownloadableError Nat) = .panic := by
  have hc : pl * idx = idx * pl := Nat.mul_comm _ _
  have hs : pl * (idx + 1) = pl * idx + pl := by rw [Nat.mul_add, Nat.mul_one]
  have h1 : (uadd .debug idx 1 : Res DownloadableError Nat) = .ok (idx + 1) := by
    unfold uadd; rw [if_pos (by omega)]
  have h2 : (umul .debug pl (idx + 1) : Res DownloadableError Nat) = .ok (pl * (idx + 1)) := by
    unfold umul; rw [if_pos ho]
  have h3 : (umul .debug pl idx : Res DownloadableError Nat) = .ok (pl * idx) := by
    unfold umul; rw [if_pos (by omega)]
  have h4 : (usub .debug total (pl * idx) : Res DownloadableError Nat) = .panic := by
    unfold usub; rw [if_neg (by omega)]
  simp only [Downloadable.capacity, realPieceLength, h1, h2, Res.bind_ok]
  rw [if_pos (by omega)]
  simp [h3, h4]

example : 100 < 2 * 60 := by decide

/-- In a release build it wraps around: the program then asks for about 2^64 / 16384 blocks of 16384 bytes each, all
beyond the end of the torrent. -/
theorem C34_refuted_beyond_end_release (pl idx total : Nat) (p : Peer) (h : total < idx * pl)
    (ho : pl * (idx + 1) < 2 ^ 64) (hi : idx < 2 ^ 32) :
    ((Downloadable.block pl idx total).capacity .release p : Res DownloadableError Nat) =
        .ok ((2 ^ 64 - (idx * pl - total) + 16383) / 16384) ∧
      ∀ i, i * 16384 + (idx * pl - total) + 16384 ≤ 2 ^ 64 → i * 16384 + idx * pl < 2 ^ 64 →
        (blockRequest .release pl idx total i : Res DownloadableError Message) =
          .ok (newRequest idx (i * 16384 % 2 ^ 32) 16384) := by
  have hc : pl * idx = idx * pl := Nat.mul_comm _ _
  have hs : pl * (idx + 1) = pl * idx + pl := by rw [Nat.mul_add, Nat.mul_one]
  constructor
  · have h1 : (uadd .release idx 1 : Res DownloadableError Nat) = .ok (idx + 1) := by
      unfold uadd; rw [if_pos (by omega)]
    have h2 : (umul .release pl (idx + 1) : Res DownloadableError Nat) = .ok (pl * (idx + 1)) := by
      unfold umul; rw [if_pos ho]
    have h3 : (umul .release pl idx : Res DownloadableError Nat) = .ok (pl * idx) := by
      unfold umul; rw [if_pos (by omega)]
    have h4 : (usub .release total (pl * idx) : Res DownloadableError Nat) = .ok (total + 2 ^ 64 - pl * idx) := by
      unfold usub; rw [if_neg (by omega)]
    simp only [Downloadable.capacity, realPieceLength, h1, h2, Res.bind_ok]
    rw [if_pos (by omega)]
    simp only [h3, h4, Res.bind_ok]
    rw [stepByLen_spec _ _ (by decide), Res.ok.injEq]
    simp only [BLOCK_SIZE]
    congr 1
    omega
  · intro i hb hw
    have h0 : i * 16384 < 2 ^ 64 := Nat.lt_of_le_of_lt (Nat.le_add_right _ _) hw
    have h1 : (umul .release i BLOCK_SIZE : Res DownloadableError Nat) = .ok (i * 16384) := if_pos h0
    have h2 : (umul .release idx pl : Res DownloadableError Nat) = .ok (idx * pl) := by
      unfold umul; rw [if_pos (by omega)]
    have h3 : (uadd .release (i * 16384) (idx * pl) : Res DownloadableError Nat) = .ok (i * 16384 + idx * pl) := by
      unfold uadd; rw [if_pos hw]
    have h4 : (usub .release total (i * 16384 + idx * pl) : Res DownloadableError Nat) =
        .ok (total + 2 ^ 64 - (i * 16384 + idx * pl)) := by
      unfold usub; rw [if_neg (by omega)]
    unfold blockRequest getBlockSize
    simp only [h1, h2, h3, h4, Res.bind_ok]
    have h5 : min (total + 2 ^ 64 - (i * 16384 + idx * pl)) BLOCK_SIZE = 16384 := by
      have hb : BLOCK_SIZE = 16384 := rfl
      rw [hb]
      omega
    rw [h5, Nat.mod_eq_of_lt hi, Nat.mod_eq_of_lt (by decide : 16384 < 2 ^ 32)]

example : 100 < 2 * 60 ∧ 0 * 16384 + (2 * 60 - 100) + 16384 ≤ 2 ^ 64 ∧ 0 * 16384 + 2 * 60 < 2 ^ 64 := by decide

/-! ### C36 -/

/-- C36: whatever the peer sends, at most `capacity` answers are taken, and the result is Ok only with
exactly that many, being the concatenation of their data in the order of arrival. -/
theorem C36_bounded (m : Build) (net : Net) (d : Downloadable) (f : Nat) (p : Peer) (cap : Nat)
    (hcap : 0 < cap) : ∃ new, (execute m net d f p cap).2.log = p.log ++ new ∧
      (received (isAnswer d) new).length ≤ cap ∧
      ∀ b, (execute m net d f p cap).1 = .ok b →
        (received (isAnswer d) new).length = cap ∧ b = (received (isAnswer d) new).flatMap Message.contentData := by
  obtain ⟨new, h⟩ := execute_history m net d f p cap
  have hw : received d.messageFilter new = received (isAnswer d) new :=
    received_congr (fun m' hm => filter_eq_isAnswer _ (h.wire m' hm))
  refine ⟨new, h.log, by rw [← hw]; exact h.bounded hcap, fun b hb => ?_⟩
  obtain ⟨h1, h2⟩ := h.ok b hb
  have h3 := h.bounded hcap
  rw [hw] at h1 h2 h3
  refine ⟨by omega, ?_⟩
  rw [h2, List.take_of_length_le h3]

/-- C36: the buffer itself never holds more messages than its capacity, at any time. -/
theorem C36_buffer_always (m : Build) (net : Net) (d : Downloadable) (f : Nat) (p : Peer) (cap : Nat)
    (s : DState) (h : execRun m net d f ⟨p, ⟨[], cap, 0⟩, 0⟩ = .again s) :
    s.buf.capacity = cap ∧ s.buf.buffer.length ≤ cap := by
  rcases flow_run (net := net) f (loopInv_init m d cap p) with ⟨s', new, h1, h2, -⟩ | ⟨r, q, new, h1, -, -⟩
  · rw [h] at h1
    cases h1
    refine ⟨h2.capacity, ?_⟩
    rw [h2.buffer]
    rcases h2.room with h3 | h3
    · omega
    · subst h3; simp [received]
  · rw [h] at h1; cases h1

/-- Non-vacuity: a peer that sends three blocks at once when two are expected. -/
example : (execute .release (script [blockMessage 0 0 [1] ++ blockMessage 0 0 [2] ++ blockMessage 0 0 [3]])
    (.block 32768 0 32768) 9 readyPeer 2).1 = .ok [1, 2] := by decide +kernel

/-! ### C38 -/

/-- C38: a piece returned by `download` has the hash listed for it in the metadata. -/
theorem C38_verified (sha : Bytes → Bytes) (m : Build) (dial : Dial) (f : Nat) (peerId : Bytes)
    (info : Info) (idx : Nat) (piece : Bytes)
    (h : downloadPiece sha m dial f peerId info idx = .ok piece) :
    (idx + 1) * 20 ≤ info.pieces.length ∧ sha piece = (info.pieces.drop (idx * 20)).take 20 := by
  cases dial with
  | unparsable => simp [downloadPiece] at h
  | refused => simp [downloadPiece] at h
  | connected net =>
    simp only [downloadPiece, downloadRun] at h
    revert h
    generalize initPeer net (Peer.new ⟨[], 0⟩ (info.computeInfoHash sha) peerId) = r
    obtain ⟨r1, p⟩ := r
    cases r1 with
    | ok u =>
      simp only []
      cases ht : (info.getTotalLength m : Res PeerManagerError Nat) with
      | ok total =>
        simp only []
        generalize (Downloadable.block info.pieceLength idx total).download m net f p = q
        obtain ⟨q1, q2⟩ := q
        cases q1 with
        | ok b =>
          simp only [Info.verifyPiece, Info.getPiece, chunksExact]
          intro h
          by_cases hlt : idx < info.pieces.length / 20
          · have e : ((List.range (info.pieces.length / 20)).map
                (fun i => (info.pieces.drop (i * 20)).take 20))[idx]? =
                  some ((info.pieces.drop (idx * 20)).take 20) := by
              rw [List.getElem?_map, List.getElem?_range hlt]; rfl
            rw [e] at h
            simp only [Res.bind_ok] at h
            by_cases hs : (sha b == (info.pieces.drop (idx * 20)).take 20) = true
            · rw [if_pos hs] at h
              cases h
              exact ⟨by omega, by simpa using hs⟩
            · rw [if_neg hs] at h; cases h
          · have e : ((List.range (info.pieces.length / 20)).map
                (fun i => (info.pieces.drop (i * 20)).take 20))[idx]? = none := by
              rw [List.getElem?_eq_none_iff]; simp; omega
            rw [e] at h
            simp at h
        | err e => simp
        | panic => simp
        | hang => simp
      | err e => simp
      | panic => simp
      | hang => simp
    | err e => simp
    | panic => simp
    | hang => simp

/-- Non-vacuity: a one-byte torrent downloaded from a peer that sends everything at once (with a constant
function for SHA-1). -/
example : downloadPiece (fun _ => List.replicate 20 7) .release
    (.connected (script [sampleHandshake (List.replicate 20 7) ++ sampleExtension b!"5" ++ sampleUnchoke ++
      blockMessage 0 0 [42]])) 5 (List.replicate 20 1)
    ⟨none, some 1, b!"n", 16384, List.replicate 20 7⟩ 0 = .ok [42] := by decide +kernel

end RustBit
