/-
Property C96: what the client says to a peer.
-/
import Verif.Props.Download
import Verif.Props.Messages
import Verif.Props.Bencode
import Verif.Spec.Conversation

namespace RustBit
open Spec

/-! ### The opening messages -/

theorem opening_spec (hash id : Bytes) (hh : hash.length = 20) (hi : id.length = 20) :
    FirstWords hash id 28282 [(newHandshake hash id).asBytes, newInterested.asBytes, extensionHandshakeBytes] := by
  refine ⟨_, _, _, rfl, C23_handshake_layout hash id hh hi, C21_interested,
    b!"d1:md11:ut_metadatai1e6:ut_pexi2ee13:metadata_sizei28282ee", ?_, beU32 60, isU32_beU32 60 (by decide), rfl⟩
  have h1 : IsBencode (.int ((1 : Nat) : Int)) b!"i1e" := isBencode_encUsize 1
  have h2 : IsBencode (.int ((2 : Nat) : Int)) b!"i2e" := isBencode_encUsize 2
  have h3 : IsBencode (.int ((28282 : Nat) : Int)) b!"i28282e" := isBencode_encUsize 28282
  have h : IsBencode (.dict [(b!"m", .dict [(b!"ut_metadata", .int 1), (b!"ut_pex", .int 2)]), (b!"metadata_size", .int 28282)])
      (100 :: (b!"1:m" ++ (100 :: (b!"11:ut_metadata" ++ b!"i1e" ++ (b!"6:ut_pex" ++ b!"i2e" ++ [])) ++ [101]) ++
        (b!"13:metadata_size" ++ b!"i28282e" ++ [])) ++ [101]) :=
    .dict (.cons (isStr_of_eq rfl) (.dict (.cons (isStr_of_eq rfl) h1 (.cons (isStr_of_eq rfl) h2 .nil))) (.cons (isStr_of_eq rfl) h3 .nil))
  exact h

/-! ### Downloads: the opening messages, then requests -/

theorem eachWrite_mem {Q : List Ev → Bytes → Prop} {log : List Ev} (h : EachWrite Q log) {x : Bytes} (hx : x ∈ written log) :
    ∃ pre post, log = pre ++ .sent x :: post ∧ Q pre x := by
  simp only [written, List.mem_filterMap] at hx
  obtain ⟨e, he, hm⟩ := hx
  cases e with
  | sent b =>
    simp only [Option.some.injEq] at hm
    subst hm
    obtain ⟨pre, post, e⟩ := List.append_of_mem he
    exact ⟨pre, post, e, h pre b post e⟩
  | got m => simp at hm

theorem written_count {log : List Ev} {n : Nat} (h : EachWrite (fun pre _ => (written pre).length < n) log) : (written log).length ≤ n := by
  rcases List.eq_nil_or_concat (written log) with e | ⟨init, x, e⟩
  · rw [e]; simp
  · have hsplit : ∀ (log : List Ev), written log ≠ [] → ∃ pre x post, log = pre ++ .sent x :: post ∧ written post = [] := by
      intro log
      induction log with
      | nil => intro h; simp [written] at h
      | cons a t ih =>
        intro h
        by_cases ht : written t = []
        · cases a with
          | sent b => exact ⟨[], b, t, rfl, ht⟩
          | got m => simp only [written, List.filterMap_cons] at h ht; exact absurd ht h
        · obtain ⟨pre, x, post, rfl, h2⟩ := ih ht
          exact ⟨a :: pre, x, post, rfl, h2⟩
    obtain ⟨pre, y, post, e', h2⟩ := hsplit log (by rw [e]; simp)
    have := h pre y post e'
    rw [e', written_append]
    simp only [written, List.filterMap_cons, List.length_append, List.length_cons] at this h2 ⊢
    rw [h2]
    simp
    omega

/-- What is said when something is downloaded over a fresh connection. -/
theorem talk_download (m : Build) (net : Net) (d : Downloadable) (f : Nat) (hash peerId : Bytes) (hh : hash.length = 20)
    (hi : peerId.length = 20) (n : Nat) (R : Bytes → Prop) :
    let r := initPeer net (freshPeer hash peerId)
    Talk hash peerId 28282 n R (written r.2.log) ∧
    (r.1 = .ok () → (∀ cap, (d.capacity m r.2 : Res DownloadableError Nat) = .ok cap → cap ≤ n ∧
      ∀ i q msg, i < cap → (d.request m q i : Res DownloadableError Message) = .ok msg → R msg.asBytes) →
      Talk hash peerId 28282 n R (written (d.download m net f r.2).2.log)) := by
  intro r
  obtain ⟨new, ht, hw, hok⟩ := initPeer_history net (freshPeer hash peerId) rfl
  have hl : r.2.log = new := by show (initPeer net (freshPeer hash peerId)).2.log = _; rw [ht.log]; rfl
  have ho := opening_spec hash peerId hh hi
  refine ⟨⟨_, ho, .inl (by rw [hl]; exact hw)⟩, fun hr hR => ?_⟩
  obtain ⟨-, m0, x0, gots, hg, -, -⟩ := hok hr
  have hw3 : written new = [(newHandshake hash peerId).asBytes, newInterested.asBytes, extensionHandshakeBytes] := by
    rw [hg]
    have : ∀ gots : List Message, written (gots.map Ev.got) = [] := by
      intro gots; induction gots with
      | nil => rfl
      | cons a t ih => simp [written]
    have h := this gots
    simp only [written, List.filterMap_cons] at h ⊢
    rw [h]; rfl
  rcases download_history m net d f r.2 with ⟨cap, new', hcap, hend⟩ | ⟨hp, -⟩
  · obtain ⟨hn, hreq⟩ := hR cap hcap
    refine ⟨_, ho, .inr ⟨written new', ?_, ?_, ?_⟩⟩
    · rw [hend.log, hl, written_append, hw3]
    · refine Nat.le_trans (written_count (eachWrite_imp hend.writes ?_)) hn
      rintro pre x post e ⟨-, h2, -, h4, -⟩
      omega
    · intro x hx
      obtain ⟨pre, post, e, -, -, -, h4, q, msg, h5, h6⟩ := eachWrite_mem hend.writes hx
      rw [h6]
      exact hreq _ q msg h4 h5
  · rw [hp, hl, hw3]
    exact ⟨_, ho, .inl (List.prefix_refl _)⟩

/-- C96: everything the client says to a peer while it downloads a piece of a torrent, whatever the peer does and wherever the attempt is cut
off: the three opening messages, then at most as many requests as the piece has blocks, each for 1 to 16384 bytes of this piece that begin
at a multiple of 16384 inside the piece and end inside the torrent. Nothing else: no data, no claim to have pieces, no answer. -/
theorem C96_piece_partial (sha : Bytes → Bytes) (hsha : ∀ x, (sha x).length = 20) (m : Build) (net : Net) (f : Nat) (peerId : Bytes)
    (hid : peerId.length = 20) (info : Info) (idx total : Nat) (ht : (info.getTotalLength m : Res PeerManagerError Nat) = .ok total)
    (hin : idx * info.pieceLength < total) (ho : info.pieceLength * (idx + 1) < 2 ^ 64) (h64 : total < 2 ^ 64) (hi : idx < 2 ^ 32)
    (hsz : pieceSize info.pieceLength idx total < 2 ^ 32) :
    Talk (info.computeInfoHash sha) peerId 28282 ((pieceSize info.pieceLength idx total + 16383) / 16384)
      (fun x => ∃ o l, IsBlockRequest idx o l x ∧ o % 16384 = 0 ∧ o < pieceSize info.pieceLength idx total ∧ 0 < l ∧ l ≤ 16384 ∧
        idx * info.pieceLength + o + l ≤ total)
      (written (downloadRun sha m net f peerId info idx).2.log) := by
  have main := talk_download m net (.block info.pieceLength idx total) f (info.computeInfoHash sha) peerId (hsha _) hid
    ((pieceSize info.pieceLength idx total + 16383) / 16384)
    (fun x => ∃ o l, IsBlockRequest idx o l x ∧ o % 16384 = 0 ∧ o < pieceSize info.pieceLength idx total ∧ 0 < l ∧ l ≤ 16384 ∧
        idx * info.pieceLength + o + l ≤ total)
  simp only [freshPeer] at main
  unfold downloadRun
  generalize initPeer net (Peer.new ⟨[], 0⟩ (info.computeInfoHash sha) peerId) = r at main
  obtain ⟨r1, p⟩ := r
  cases r1 with
  | ok u =>
    simp only [ht]
    have h2 := main.2 rfl ?_
    · generalize (Downloadable.block info.pieceLength idx total).download m net f p = q at h2
      obtain ⟨q1, q2⟩ := q
      cases q1 <;> exact h2
    · intro cap hcap
      simp only [Downloadable.capacity, realPieceLength_eq m info.pieceLength idx total hin ho hi, Res.bind_ok] at hcap
      rw [stepByLen_spec _ _ (by decide), Res.ok.injEq] at hcap
      simp only [BLOCK_SIZE] at hcap
      refine ⟨by omega, fun i q msg hlt hreq => ?_⟩
      have hsize : pieceSize info.pieceLength idx total = min info.pieceLength (total - idx * info.pieceLength) := rfl
      generalize hS : pieceSize info.pieceLength idx total = S at *
      generalize hP : idx * info.pieceLength = P at *
      have hb := blockRequest_eq (ε := DownloadableError) m info.pieceLength idx total i (by omega) h64
      simp only [Downloadable.request] at hreq
      rw [hb, Res.ok.injEq] at hreq
      rw [← hreq, hP, Nat.mod_eq_of_lt hi, Nat.mod_eq_of_lt (by omega : i * 16384 < 2 ^ 32),
        Nat.mod_eq_of_lt (by omega : min (total - (i * 16384 + P)) 16384 < 2 ^ 32)]
      exact ⟨_, _, C22_request_wire _ _ _ hi (by omega) (by omega), by omega, by omega, by omega, by omega, by omega⟩
  | err e => exact main.1
  | panic => exact main.1
  | hang => exact main.1

/-! ### Downloads of metadata -/

theorem intsFit_get {d : List (Bytes × Metainfo)} (h : IntsFitEntries d) {k : Bytes} {v : Metainfo} (hv : mapGet d k = some v) : IntsFit v := by
  induction d with
  | nil => simp [mapGet] at hv
  | cons a t ih =>
    obtain ⟨k', v'⟩ := a
    simp only [IntsFitEntries] at h
    simp only [mapGet] at hv
    split at hv
    · simp only [Option.some.injEq] at hv; subst hv; exact h.1
    · exact ih h.2 hv

theorem getIntegerFromDict_fits {v : Metainfo} (h : IntsFit v) {k : Bytes} {n : Nat} (hn : okValue (v.getIntegerFromDict k) = some n) :
    n < 2 ^ 64 := by
  cases v with
  | dictionary d =>
    simp only [Metainfo.getIntegerFromDict, Metainfo.getDictContent, Res.bind_ok] at hn
    cases hg : mapGet d k with
    | none => rw [hg] at hn; simp [okValue] at hn
    | some w =>
      rw [hg] at hn
      have := intsFit_get h hg
      cases w <;> simp [Metainfo.getIntegerContent, okValue] at hn
      subst hn
      exact this
  | _ => simp [Metainfo.getIntegerFromDict, Metainfo.getDictContent, okValue] at hn

/-- The metadata size of a message is a 64-bit number. -/
theorem metadataSize_fits {x : Message} (hw : FromWire x) {e : ExtensionMessage} (hc : x.content = .extension e) {n : Nat}
    (hn : e.metadataSize = some n) : n < 2 ^ 64 := by
  obtain ⟨body, len, id, hnr⟩ := hw
  obtain ⟨-, -, h3⟩ := newRaw_id hnr
  have hid := (contentOf_shape h3).2.1.mp ⟨e, hc⟩
  subst hid
  rw [hc] at h3
  have e20 : Message.contentOf body 20 = (do
      let e ← ExtensionMessage.fromBytes body
      .ok (.extension e)) := by
    unfold Message.contentOf
    rw [if_neg (by decide), if_neg (by decide), if_neg (by decide), if_pos rfl]
  rw [e20] at h3
  obtain ⟨e', he, h4⟩ := bind_eq_ok h3
  simp only [Res.ok.injEq, ContentType.extension.injEq] at h4
  subst h4
  unfold ExtensionMessage.fromBytes at he
  obtain ⟨b, -, he⟩ := bind_eq_ok he
  obtain ⟨⟨v, k⟩, hd, he⟩ := bind_eq_ok he
  obtain ⟨i, -, he⟩ := bind_eq_ok he
  obtain ⟨data, -, he⟩ := bind_eq_ok he
  simp only [Res.ok.injEq] at he
  subst he
  have hd' : Decoder.decode b = .ok (v, k) := by
    cases hx : Decoder.decode b <;> simp [hx, Res.mapErr] at hd
    rw [hd]
  exact getIntegerFromDict_fits (C08_ints_fit b v k hd') hn

/-- The peer's state agrees with what it has said. -/
structure Heard (p : Peer) : Prop where
  ids : mapGet p.extensions b!"ut_metadata" = metadataId p.log
  size : p.metadataSize < 2 ^ 64

theorem Heard.sent {p : Peer} (h : Heard p) (net : Net) (b : Bytes) : Heard (p.write net b).2 :=
  ⟨by simp [Peer.write, metadataId, h.ids], h.size⟩

theorem Heard.got {p : Peer} (h : Heard p) {x : Message} (hw : FromWire x) : Heard (p.applyMessage x) := by
  have hs := applyState_size (p := p) hw
  have hids : mapGet (p.applyState x).extensions b!"ut_metadata" = (match x.content with
      | .extension e => if e.metadataSize.isSome then mapGet e.extensions b!"ut_metadata" else mapGet p.extensions b!"ut_metadata"
      | _ => mapGet p.extensions b!"ut_metadata") := by
    obtain ⟨body, len, id, hn⟩ := hw
    obtain ⟨h1, -, h3⟩ := newRaw_id hn
    have hsh := (contentOf_shape h3).2.1
    unfold Peer.applyState Peer.applyContent
    cases hc : x.content with
    | extension e =>
      have : x.id = 20 := by rw [h1]; exact hsh.mp ⟨e, hc⟩
      rw [if_neg (by rw [this]; decide), if_neg (by rw [this]; decide), if_pos (by rw [this]; decide)]
      by_cases hm : e.metadataSize.isSome = true
      · simp only [if_pos hm, if_pos (show e.isHandshake = true from hm)]
      · simp only [if_neg hm, if_neg (show ¬ e.isHandshake = true from hm)]
    | _ =>
      split
      · rfl
      · split
        · rfl
        · split <;> rfl
  constructor
  · simp only [Peer.applyMessage]
    rw [hids, h.ids]
    simp only [metadataId, List.foldl_append, List.foldl_cons, List.foldl_nil]
    cases x.content <;> rfl
  · simp only [Peer.applyMessage]
    rw [hs]
    cases hc : x.content with
    | extension e =>
      cases hn : e.metadataSize with
      | none => simp [hn, h.size]
      | some n => simpa [hn] using metadataSize_fits hw hc hn
    | _ => exact h.size

theorem Heard.conn {p : Peer} (h : Heard p) (c : Conn) : Heard { p with conn := c } := ⟨h.ids, h.size⟩

theorem Heard.read {p : Peer} (h : Heard p) (net : Net) : Heard (readAndApply net p).2 := by
  obtain ⟨c, e | e | e | ⟨x, hw, e⟩⟩ := readAndApply_cases net p
  · rw [e]; exact h.conn c
  · rw [e]; exact h.conn c
  · rw [e]; exact h.conn c
  · rw [e]; exact (h.conn c).got hw

theorem Heard.ready {net : Net} (k : Nat) : ∀ {p : Peer}, Heard p → Heard (readyLoop net k p).2 := by
  induction k with
  | zero => intro p h; exact h
  | succ k ih =>
    intro p h
    have hr := h.read net
    rw [readyLoop]
    generalize readAndApply net p = q at hr
    obtain ⟨_ | _ | _ | _, q⟩ := q
    · simp only []
      split
      · exact hr
      · exact ih hr
    all_goals exact hr

theorem Heard.init {p : Peer} (h : Heard p) (net : Net) : Heard (initPeer net p).2 := by
  have h0 : Heard (p.sendMessage net (newHandshake p.infoHash p.id)) := h.sent net _
  have hr := h0.read net
  unfold initPeer
  simp only []
  generalize readAndApply net (p.sendMessage net (newHandshake p.infoHash p.id)) = q at hr
  obtain ⟨_ | _ | _ | _, q⟩ := q
  · simp only []
    split
    · exact hr
    · have h2 : Heard ((q.sendMessage net newInterested).sendMetadataHandshakeRequest net).2 := (hr.sent net newInterested.asBytes).sent net _
      generalize (q.sendMessage net newInterested).sendMetadataHandshakeRequest net = z at h2
      obtain ⟨_ | _, z⟩ := z
      · exact h2
      · exact h2.ready 10
  all_goals exact hr

/-- Every message after the first three is a request for metadata with the number that the peer last gave. -/
def ByNumber (pre : List Ev) (x : Bytes) : Prop :=
  (written pre).length < 3 ∨ ∃ ext i, metadataId pre = some ext ∧ IsExtension ext [(b!"msg_type", .int 0), (b!"piece", .int (i : Nat))] [] x

structure NumInv (s : DState) : Prop where
  heard : Heard s.peer
  writes : EachWrite ByNumber s.peer.log
  room : s.buf.buffer.length ≤ s.buf.capacity
  fits : s.buf.capacity < 2 ^ 64

theorem byNumber_tail {m : Build} {net : Net} {s : DState} (h : NumInv s) :
    match execTail m net .info s with
    | .again s' => NumInv s'
    | .done _ p => EachWrite ByNumber p.log := by
  unfold execTail
  by_cases h1 : s.buf.isFull = true
  · rw [if_pos h1]; exact h.writes
  · rw [if_neg h1]
    have hroom : s.buf.buffer.length < s.buf.capacity := by
      have := h.room
      simp only [MessageBuffer.isFull, beq_iff_eq] at h1
      omega
    by_cases h2 : s.peer.choked = true
    · rw [if_pos h2]; exact h.writes
    · rw [if_neg h2]
      unfold MessageBuffer.requestNextMessage
      by_cases h3 : (s.buf.isLenAsExpected || s.buf.isFull) = true
      · rw [if_pos h3]
        by_cases h4 : s.idle + 1 > 10
        · simp only [if_pos h4]; exact h.writes
        · simp only [if_neg h4]; exact ⟨h.heard, h.writes, h.room, h.fits⟩
      · rw [if_neg h3]
        cases hr : (Downloadable.info.request m s.peer s.buf.buffer.length : Res DownloadableError Message) with
        | ok msg =>
          have h' : Heard (s.peer.sendMessage net msg) := h.heard.sent net _
          have hw' : EachWrite ByNumber (s.peer.sendMessage net msg).log := by
            refine eachWrite_sent h.writes _ (.inr ?_)
            simp only [Downloadable.request] at hr
            rw [h.heard.ids] at hr
            cases hm : metadataId s.peer.log with
            | none => rw [hm] at hr; simp at hr
            | some ext =>
              rw [hm] at hr
              have hlt : s.buf.buffer.length < 2 ^ 64 := Nat.lt_trans hroom h.fits
              obtain ⟨msg', h5, h6⟩ := C26_metadata_request ext _ hlt
              rw [newMetadata_eq ext _ hlt, Res.ok.injEq] at h5
              simp only [newMetadata_eq ext _ hlt, Res.ok.injEq] at hr
              rw [← hr, h5]
              exact ⟨ext, _, rfl, h6⟩
          by_cases h4 : s.idle + 1 > 10
          · simp only [if_pos h4]; exact hw'
          · simp only [if_neg h4]; exact ⟨h', hw', h.room, h.fits⟩
        | err e => exact h.writes
        | panic => exact h.writes
        | hang => exact h.writes

theorem byNumber_step {m : Build} {net : Net} {s : DState} (h : NumInv s) :
    match execStep m net .info s with
    | .again s' => NumInv s'
    | .done _ p => EachWrite ByNumber p.log := by
  unfold execStep
  obtain ⟨c, r, hr, -, hcase⟩ := readMessage_cases (ε := DownloadableError) net s.peer
  rw [hr]
  rcases hcase with rfl | rfl | rfl | ⟨x, body, len, id, rfl, -, hn⟩
  · exact byNumber_tail (s := { s with peer := { s.peer with conn := c } }) ⟨h.heard.conn c, h.writes, h.room, h.fits⟩
  · exact h.writes
  · exact h.writes
  · refine byNumber_tail (s := ⟨({ s.peer with conn := c } : Peer).applyMessage x, _, 0⟩)
      ⟨(h.heard.conn c).got ⟨body, len, id, hn⟩, eachWrite_got h.writes x, ?_, ?_⟩
    · unfold MessageBuffer.pushMessage
      have := h.room
      split
      · rename_i hp
        simp only [MessageBuffer.isFull, Bool.and_eq_true, Bool.not_eq_true', beq_eq_false_iff_ne] at hp
        have := hp.2
        simp only [List.length_append, List.length_singleton]
        omega
      · exact this
    · unfold MessageBuffer.pushMessage
      split <;> exact h.fits

theorem byNumber_run {m : Build} {net : Net} (f : Nat) : ∀ {s : DState}, NumInv s →
    match execRun m net .info f s with
    | .again s' => EachWrite ByNumber s'.peer.log
    | .done _ p => EachWrite ByNumber p.log := by
  induction f with
  | zero => intro s h; exact h.writes
  | succ f ih =>
    intro s h
    have hs := byNumber_step (m := m) (net := net) h
    rw [execRun]
    generalize execStep m net .info s = z at hs
    cases z with
    | again s' => exact ih hs
    | done r p => exact hs

theorem byNumber_download (m : Build) (net : Net) (f : Nat) {p : Peer} (h : Heard p) (hw : EachWrite ByNumber p.log) :
    EachWrite ByNumber (Downloadable.info.download m net f p).2.log := by
  unfold Downloadable.download
  cases hc : (Downloadable.info.capacity m p : Res DownloadableError Nat) with
  | ok cap =>
    simp only [execute]
    have hfit : cap < 2 ^ 64 := by
      simp only [Downloadable.capacity] at hc
      rw [stepByLen_spec _ _ (by decide), Res.ok.injEq] at hc
      have := h.size
      simp only [INFO_PIECE_SIZE] at hc
      omega
    have := byNumber_run (m := m) (net := net) f (s := ⟨p, ⟨[], cap, 0⟩, 0⟩) ⟨h, hw, Nat.zero_le _, hfit⟩
    generalize execRun m net .info f ⟨p, ⟨[], cap, 0⟩, 0⟩ = z at this
    cases z <;> exact this
  | err e => exact hw
  | panic => exact hw
  | hang => exact hw

/-- C96: everything the client says to a peer while it fetches the metadata of a torrent, whatever the peer does and wherever the attempt is cut
off: the three opening messages, then at most as many requests as the metadata has blocks, according to the size announced when the
peer became ready, each for one of those blocks and with the number that the peer has last given to the extension. -/
theorem C96_metadata_partial (m : Build) (net : Net) (f : Nat) (peerId hash : Bytes) (hid : peerId.length = 20) (hh : hash.length = 20) :
    (∃ pre, pre <+: (getInfoRun m net f peerId hash).2.log ∧
      Talk hash peerId 28282 ((announcedSize 0 pre + 16383) / 16384)
        (fun x => ∃ ext i, i * 16384 < announcedSize 0 pre ∧ IsExtension ext [(b!"msg_type", .int 0), (b!"piece", .int i)] [] x)
        (written (getInfoRun m net f peerId hash).2.log)) ∧
    EachWrite (fun pre x => (written pre).length < 3 ∨ ∃ ext i, metadataId pre = some ext ∧
      IsExtension ext [(b!"msg_type", .int 0), (b!"piece", .int (i : Nat))] [] x) (getInfoRun m net f peerId hash).2.log := by
  have heard : Heard (initPeer net (freshPeer hash peerId)).2 := Heard.init ⟨rfl, Nat.two_pow_pos 64⟩ net
  obtain ⟨new, htr, hwr, -⟩ := initPeer_history net (freshPeer hash peerId) rfl
  have hl : (initPeer net (freshPeer hash peerId)).2.log = new := by rw [htr.log]; rfl
  have hsize : (initPeer net (freshPeer hash peerId)).2.metadataSize = announcedSize 0 (initPeer net (freshPeer hash peerId)).2.log := by
    rw [hl]; exact htr.size
  have hfew : EachWrite ByNumber (initPeer net (freshPeer hash peerId)).2.log := by
    rw [hl]
    exact eachWrite_of_few (k := 3) hwr.length_le (fun pre x hx => .inl hx)
  have main := fun n R => talk_download m net .info f hash peerId hh hid n R
  simp only [freshPeer] at main heard hsize hfew
  unfold getInfoRun
  generalize initPeer net (Peer.new ⟨[], 0⟩ hash peerId) = r at main heard hsize hfew
  obtain ⟨r1, p⟩ := r
  cases r1 with
  | ok u =>
    have h2 := (main ((announcedSize 0 p.log + 16383) / 16384)
      (fun x => ∃ ext i, i * 16384 < announcedSize 0 p.log ∧ IsExtension ext [(b!"msg_type", .int 0), (b!"piece", .int (i : Nat))] [] x)).2 rfl ?_
    · have h3 := byNumber_download m net f heard hfew
      have h4 : p.log <+: (Downloadable.info.download m net f p).2.log := by
        rcases download_history m net .info f p with ⟨cap, new', -, hend⟩ | ⟨hp, -⟩
        · rw [hend.log]; exact ⟨new', rfl⟩
        · rw [hp]; exact List.prefix_refl _
      simp only []
      generalize Downloadable.info.download m net f p = q at h2 h3 h4
      obtain ⟨q1, q2⟩ := q
      cases q1 <;> exact ⟨⟨p.log, h4, h2⟩, h3⟩
    · intro cap hcap
      simp only [Downloadable.capacity] at hcap
      rw [stepByLen_spec _ _ (by decide), Res.ok.injEq] at hcap
      simp only [INFO_PIECE_SIZE] at hcap
      have := heard.size
      simp only at this hsize
      refine ⟨by omega, fun i q msg hlt hreq => ?_⟩
      have h64 : i < 2 ^ 64 := by omega
      simp only [Downloadable.request] at hreq
      split at hreq
      · rename_i ext _
        obtain ⟨msg', h5, h6⟩ := C26_metadata_request ext i h64
        rw [newMetadata_eq ext i h64, Res.ok.injEq] at h5
        rw [newMetadata_eq ext i h64, Res.ok.injEq] at hreq
        rw [← hreq, h5]
        exact ⟨ext, i, by omega, h6⟩
      · simp at hreq
  | err e => exact ⟨⟨p.log, List.prefix_refl _, (main _ _).1⟩, hfew⟩
  | panic => exact ⟨⟨p.log, List.prefix_refl _, (main _ _).1⟩, hfew⟩
  | hang => exact ⟨⟨p.log, List.prefix_refl _, (main _ _).1⟩, hfew⟩

/-- Non-vacuity: a peer that is ready at once is asked for the only block of its metadata, by the number it has given. -/
example : (written (getInfoRun .release (script [sampleHandshake (List.replicate 20 7) ++ sampleExtension b!"5" ++ sampleUnchoke]) 5
      (List.replicate 20 1) (List.replicate 20 7)).2.log)[3]? = some ([0, 0, 0, 27, 20, 3] ++ b!"d8:msg_typei0e5:piecei0ee") := by
  decide +kernel

/-- Non-vacuity: the torrent of one byte is asked for with a single request, for one byte. -/
example : (written (downloadRun (fun _ => List.replicate 20 7) .release
      (script [sampleHandshake (List.replicate 20 7) ++ sampleExtension b!"5" ++ sampleUnchoke]) 5 (List.replicate 20 1)
      ⟨none, some 1, b!"n", 16384, List.replicate 20 7⟩ 0).2.log).drop 3 = [[0, 0, 0, 13, 6, 0, 0, 0, 0, 0, 0, 0, 0, 0, 0, 0, 1]] := by
  decide +kernel

/-- The full C96 is false: the extension handshake says that the client has metadata of 28282 bytes, whatever the torrent is (see the number in
the two theorems above). Here the peer has told the client that there are 5 bytes, and the client has none of them. -/
theorem C96_refuted : ∃ net x, (written (getInfoRun .release net 5 (List.replicate 20 1) (List.replicate 20 7)).2.log)[2]? = some x ∧
    IsExtension 0 [(b!"m", .dict [(b!"ut_metadata", .int 1), (b!"ut_pex", .int 2)]), (b!"metadata_size", .int 28282)] [] x ∧
    announcedSize 0 (getInfoRun .release net 5 (List.replicate 20 1) (List.replicate 20 7)).2.log = 5 := by
  obtain ⟨hs, int, ext, e, -, -, h⟩ := opening_spec (List.replicate 20 7) (List.replicate 20 1) rfl rfl
  simp only [List.cons.injEq] at e
  refine ⟨script [sampleHandshake (List.replicate 20 7) ++ sampleExtension b!"5" ++ sampleUnchoke], ext, ?_, h, by decide +kernel⟩
  rw [← e.2.2.1]
  decide +kernel

/-! ### How much is written -/

theorem flatten_prefix {w o : List Bytes} (h : w <+: o) : w.flatten.length ≤ o.flatten.length := by
  obtain ⟨t, rfl⟩ := h
  rw [List.flatten_append, List.length_append]
  omega

theorem flatten_le {c : Nat} : ∀ {l : List Bytes}, (∀ x ∈ l, x.length ≤ c) → l.flatten.length ≤ c * l.length := by
  intro l
  induction l with
  | nil => intro _; exact Nat.zero_le _
  | cons a t ih =>
    intro h
    have h1 := h a (.head _)
    have h2 := ih (fun x hx => h x (.tail _ hx))
    rw [List.flatten_cons, List.length_append, List.length_cons, Nat.mul_add]
    omega

theorem firstWords_volume {hash id : Bytes} {o : List Bytes} (h : FirstWords hash id 28282 o) : o.flatten.length = 137 := by
  obtain ⟨hs, int, ext, rfl, ⟨h1, h2, h3, rfl⟩, ⟨l1, ⟨h4, -⟩, rfl⟩, doc, hd, l2, ⟨h5, -⟩, rfl⟩ := h
  obtain ⟨hs', int', ext', e, -, -, doc', hd', l3, ⟨h6, -⟩, he⟩ := opening_spec hash id h2 h3
  rw [isBencode_unique hd hd']
  simp only [List.cons.injEq] at e
  have h7 : ext'.length = 64 := by rw [← e.2.2.1]; rfl
  rw [he] at h7
  simp only [List.length_append, List.length_cons, List.length_nil, Nat.add_zero] at h7
  have hn : "BitTorrent protocol".toUTF8.toList.length = 19 := by decide +kernel
  simp only [List.flatten_cons, List.flatten_nil, List.length_append, List.length_cons, List.length_nil, hn, h1, h2, h3, h4, h5]
  omega

theorem talk_volume {hash id : Bytes} {n c : Nat} {R : Bytes → Prop} {w : List Bytes} (h : Talk hash id 28282 n R w)
    (hR : ∀ x, R x → x.length ≤ c) : w.flatten.length ≤ 137 + c * n := by
  obtain ⟨o, ho, hp | ⟨reqs, rfl, hl, hr⟩⟩ := h
  · have := flatten_prefix hp
    rw [firstWords_volume ho] at this
    omega
  · have h1 := flatten_le (fun x hx => hR x (hr x hx))
    have h2 := Nat.mul_le_mul_left c hl
    rw [List.flatten_append, List.length_append, firstWords_volume ho]
    omega

/-- C96: whatever the peer does, the client writes at most 137 bytes and 17 for every block of the piece. So a peer that stops reading can only hold
up the client in `write` (which has no time limit) if the buffers between them are smaller than that. -/
theorem C96_volume_partial (sha : Bytes → Bytes) (hsha : ∀ x, (sha x).length = 20) (m : Build) (net : Net) (f : Nat) (peerId : Bytes)
    (hid : peerId.length = 20) (info : Info) (idx total : Nat) (ht : (info.getTotalLength m : Res PeerManagerError Nat) = .ok total)
    (hin : idx * info.pieceLength < total) (ho : info.pieceLength * (idx + 1) < 2 ^ 64) (h64 : total < 2 ^ 64) (hi : idx < 2 ^ 32)
    (hsz : pieceSize info.pieceLength idx total < 2 ^ 32) :
    (written (downloadRun sha m net f peerId info idx).2.log).flatten.length ≤
      137 + 17 * ((pieceSize info.pieceLength idx total + 16383) / 16384) := by
  refine talk_volume (C96_piece_partial sha hsha m net f peerId hid info idx total ht hin ho h64 hi hsz) ?_
  rintro x ⟨o, l, ⟨p, o', l', ⟨h1, -⟩, ⟨h2, -⟩, ⟨h3, -⟩, len, ⟨h4, -⟩, rfl⟩, -⟩
  simp only [List.length_append, List.length_cons, h1, h2, h3, h4]
  omega

/-- Non-vacuity: the bound is attained; see the example for `C96_piece_partial`, where one block is requested. -/
example : (written (downloadRun (fun _ => List.replicate 20 7) .release
      (script [sampleHandshake (List.replicate 20 7) ++ sampleExtension b!"5" ++ sampleUnchoke]) 5 (List.replicate 20 1)
      ⟨none, some 1, b!"n", 16384, List.replicate 20 7⟩ 0).2.log).flatten.length = 137 + 17 * ((pieceSize 16384 0 1 + 16383) / 16384) := by
  decide +kernel

end RustBit
