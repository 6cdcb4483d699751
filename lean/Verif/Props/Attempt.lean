/-
Property C107 for attempts with peers: the error of an attempt tells what went wrong in it.
-/
import Verif.Proofs.Attempt
import Verif.Props.Errors
import Verif.Props.Honest
import Verif.Props.LogTells

namespace RustBit
open Spec

/-- C107: opening a connection fails with an error exactly if this is what went wrong: the first read gives no handshake for the torrent, or
our extension handshake cannot be sent, or the peer cannot be asked after any of the next ten reads; it succeeds exactly if after one of
them it can. -/
theorem C107_opening (net : Net) (hash id : Bytes) (ms : List Message) (c : Conn) :
    (∀ e, (∃ p, initPeer net (Peer.new ⟨[], 0⟩ hash id) = (.err e, p) ∧ came p.log = ms ∧ p.conn = c) ↔ Opens net hash (some e) ms c) ∧
    ((∃ p, initPeer net (Peer.new ⟨[], 0⟩ hash id) = (.ok (), p) ∧ came p.log = ms ∧ p.conn = c) ↔ Opens net hash none ms c) := by
  refine ⟨fun e => ⟨?_, opens_backward⟩, ⟨?_, opens_backward⟩⟩
  · rintro ⟨p, h, rfl, rfl⟩; exact opens_forward p (some e) h
  · rintro ⟨p, h, rfl, rfl⟩; exact opens_forward p none h

/-- The state of a peer that has been opened. -/
theorem opened_state {net : Net} {hash id : Bytes} {p : Peer} (h : initPeer net (Peer.new ⟨[], 0⟩ hash id) = (.ok (), p)) :
    Opens net hash none (came p.log) p.conn ∧ p.choked = false ∧ p.metadataSize = sizeAfter (came p.log) ∧ p.metadataSize ≠ 0 := by
  have ho := opens_forward p none h
  obtain ⟨h1, h2, -⟩ := C31_ready net hash id p h
  obtain ⟨new, ht, -, hok⟩ := initPeer_history net (Peer.new ⟨[], 0⟩ hash id) rfl
  rw [h] at ht hok
  have hr := (hok rfl).1
  simp only [Peer.isReady, Bool.and_eq_true, decide_eq_true_eq, Bool.not_eq_true'] at hr
  refine ⟨ho, hr.2, ?_, hr.1⟩
  rw [ht.size, ht.log]
  exact announced_came 0 new

/-- How a transfer from an opened peer ends. -/
theorem transfer_ended (m : Build) (net : Net) (d : Downloadable) (f : Nat) (p : Peer) {n : Nat} (hn : 0 < n) (hck : p.choked = false)
    (hcap : (d.capacity m p : Res DownloadableError Nat) = .ok n) :
    ∃ later, came (d.download m net f p).2.log = came p.log ++ later ∧
      (∀ b, (d.download m net f p).1 = .ok b → (later.filter (isAnswer d)).length = n ∧ b = answered d later) ∧
      (∀ e, (d.download m net f p).1 = .err e → Stops net d n later (d.download m net f p).2.conn e) := by
  have hd : d.download m net f p = execute m net d f p n := by unfold Downloadable.download; rw [hcap]
  rw [hd]
  obtain ⟨new, h1, h2⟩ := execute_ended m net d f p hn
  generalize execute m net d f p n = q at h1 h2
  obtain ⟨r, q⟩ := q
  simp only at h1 h2 ⊢
  refine ⟨came new, by rw [h1, came_append], ?_, ?_⟩
  · rintro b rfl
    obtain ⟨h3, h4⟩ := h2
    rw [received_came] at h3 h4
    exact ⟨h3, h4⟩
  · rintro e rfl
    cases e with
    | chokedPeer =>
      obtain ⟨h3, h4⟩ := h2
      rw [received_came] at h3
      rw [hck, choking_came] at h4
      exact .choked h3 h4
    | idle =>
      obtain ⟨h3, h4, h5⟩ := h2
      rw [received_came] at h3
      rw [hck, choking_came] at h4
      exact .idle h3 h4 h5

/-- A transfer stops for one reason. -/
theorem stops_det {net : Net} {d : Downloadable} {n : Nat} {later : List Message} {c : Conn} {e e' : DownloadableError}
    (h : Stops net d n later c e) (h' : Stops net d n later c e') : e = e' := by
  cases h with
  | choked _ a => cases h' with
    | choked => rfl
    | idle _ b => rw [a] at b; cases b
  | idle _ a => cases h' with
    | choked _ b => rw [a] at b; cases b
    | idle => rfl

theorem stops_short {net : Net} {d : Downloadable} {n : Nat} {later : List Message} {c : Conn} {e : DownloadableError} (h : Stops net d n later c e) :
    (later.filter (isAnswer d)).length < n := by
  cases h with
  | choked h => exact h
  | idle h => exact h

/-- C107: fetching metadata from a peer that has been connected to fails with an error exactly if this is what went wrong, in terms of the
messages that came: the connection could not be opened, or before all blocks of the announced size came the peer choked us or sent
nothing in ten reads, or all of them came and what they hold is no metadata. -/
theorem C107_metadata (m : Build) (net : Net) (f : Nat) (id hash : Bytes) (hret : Returned (getInfoRun m net f id hash).1) (e : PeerManagerError) :
    (getInfoRun m net f id hash).1 = .err e ↔
      MetadataFails net hash (came (getInfoRun m net f id hash).2.log) (getInfoRun m net f id hash).2.conn e := by
  unfold getInfoRun at hret ⊢
  cases hi : initPeer net (Peer.new ⟨[], 0⟩ hash id) with
  | mk r p =>
    rw [hi] at hret
    cases r with
    | ok u =>
      obtain ⟨ho, hck, hsz, hne⟩ := opened_state hi
      have hcap : (Downloadable.info.capacity m p : Res DownloadableError Nat) = .ok (blockCount (sizeAfter (came p.log))) := by
        simp only [Downloadable.capacity]
        rw [stepByLen_spec _ _ (by decide), hsz]
        rfl
      have hpos : 0 < blockCount (sizeAfter (came p.log)) := by rw [← hsz]; unfold blockCount; omega
      obtain ⟨later, h1, h2, h3⟩ := transfer_ended m net .info f p hpos hck hcap
      simp only [] at hret ⊢
      generalize Downloadable.info.download m net f p = q at h1 h2 h3 hret
      obtain ⟨r, q⟩ := q
      have same : ∀ {ms later' : List Message} {c1 : Conn}, Opens net hash none ms c1 → came q.log = ms ++ later' → ms = came p.log ∧ later' = later := by
        intro ms later' c1 hm he
        obtain ⟨-, rfl, -⟩ := opens_det ho hm
        rw [h1] at he
        exact ⟨rfl, (List.append_cancel_left he).symm⟩
      cases r with
      | ok b =>
        obtain ⟨h4, h5⟩ := h2 b rfl
        simp only at hret ⊢
        constructor
        · intro h
          obtain ⟨e', he, rfl⟩ := mapErr_eq_err.mp h
          exact .content ho h1 h4 (by rw [← h5]; exact (C107_bytes ..).mp he)
        · intro h
          cases h with
          | opening hx => exact absurd (opens_det ho hx).1 (by simp)
          | transfer a1 a2 a3 =>
            obtain ⟨rfl, rfl⟩ := same a1 a2
            have := stops_short a3
            omega
          | content a1 a2 a3 a4 =>
            obtain ⟨rfl, rfl⟩ := same a1 a2
            rw [mapErr_eq_err]
            exact ⟨_, (C107_bytes ..).mpr (by rw [h5]; exact a4), rfl⟩
      | err e' =>
        have h4 := h3 e' rfl
        simp only at hret ⊢
        constructor
        · intro h
          simp only [Res.err.injEq] at h
          subst h
          exact .transfer ho h1 h4
        · intro h
          cases h with
          | opening hx => exact absurd (opens_det ho hx).1 (by simp)
          | transfer a1 a2 a3 =>
            obtain ⟨rfl, rfl⟩ := same a1 a2
            rw [stops_det h4 a3]
          | content a1 a2 a3 a4 =>
            obtain ⟨rfl, rfl⟩ := same a1 a2
            have := stops_short h4
            omega
      | panic => exact hret.elim
      | hang => exact hret.elim
    | err e' =>
      have ho := opens_forward p (some e') hi
      simp only [Res.err.injEq] at hret ⊢
      constructor
      · rintro rfl; exact .opening ho
      · intro h
        cases h with
        | opening hx => simpa using (opens_det ho hx).1
        | transfer a1 => exact absurd (opens_det ho a1).1 (by simp)
        | content a1 => exact absurd (opens_det ho a1).1 (by simp)
    | panic => exact hret.elim
    | hang => exact hret.elim

/-- C107: fetching a piece from a peer that has been connected to fails with an error exactly if this is what went wrong: the connection could
not be opened, or before all blocks came the peer choked us or sent nothing in ten reads, or all of them came and what they
hold has another hash than the metadata lists. -/
theorem C107_piece (sha : Bytes → Bytes) (m : Build) (net : Net) (f : Nat) (id : Bytes) (info : Info) (idx : Nat) {T : Nat}
    (htot : total (listedFiles info) = T) (hT : T < 2 ^ 64) (hin : idx * info.pieceLength < T) (ho64 : info.pieceLength * (idx + 1) < 2 ^ 64)
    (hi32 : idx < 2 ^ 32) (hpl : 0 < info.pieceLength) (hret : Returned (downloadRun sha m net f id info idx).1) (e : PeerManagerError) :
    (downloadRun sha m net f id info idx).1 = .err e ↔
      PieceFails sha net (info.computeInfoHash sha) (.block info.pieceLength idx T) (pieceSize info.pieceLength idx T)
        ((info.pieces.drop (20 * idx)).take 20) (came (downloadRun sha m net f id info idx).2.log)
        (downloadRun sha m net f id info idx).2.conn e := by
  unfold downloadRun at hret ⊢
  generalize info.computeInfoHash sha = hash at hret ⊢
  cases hi : initPeer net (Peer.new ⟨[], 0⟩ hash id) with
  | mk r p =>
    rw [hi] at hret
    cases r with
    | ok u =>
      obtain ⟨ho, hck, hsz, hne⟩ := opened_state hi
      have hlen := totalLength_listed (ε := PeerManagerError) (m := m) htot hT (by omega)
      have hcap : ((Downloadable.block info.pieceLength idx T).capacity m p : Res DownloadableError Nat) =
          .ok (blockCount (pieceSize info.pieceLength idx T)) := by
        simp only [Downloadable.capacity, realPieceLength_eq m info.pieceLength idx T hin ho64 hi32, Res.bind_ok]
        rw [stepByLen_spec _ _ (by decide)]
        rfl
      have hpos : 0 < blockCount (pieceSize info.pieceLength idx T) := by unfold blockCount pieceSize; omega
      obtain ⟨later, h1, h2, h3⟩ := transfer_ended m net (.block info.pieceLength idx T) f p hpos hck hcap
      simp only [hlen] at hret ⊢
      generalize (Downloadable.block info.pieceLength idx T).download m net f p = q at h1 h2 h3 hret
      obtain ⟨r, q⟩ := q
      have same : ∀ {ms later' : List Message} {c1 : Conn}, Opens net hash none ms c1 → came q.log = ms ++ later' → ms = came p.log ∧ later' = later := by
        intro ms later' c1 hm he
        obtain ⟨-, rfl, -⟩ := opens_det ho hm
        rw [h1] at he
        exact ⟨rfl, (List.append_cancel_left he).symm⟩
      cases r with
      | ok b =>
        obtain ⟨h4, h5⟩ := h2 b rfl
        simp only at hret ⊢
        rcases Nat.lt_or_ge idx (info.pieces.length / 20) with hk | hk
        · rw [(C15_verify_piece sha info b idx).1 hk] at hret ⊢
          simp only [Res.bind_ok, decide_eq_true_eq] at hret ⊢
          constructor
          · intro h
            split at h
            · cases h
            · rename_i hs
              cases h
              exact .content ho h1 h4 (by rw [← h5]; exact hs)
          · intro h
            cases h with
            | opening hx => exact absurd (opens_det ho hx).1 (by simp)
            | transfer a1 a2 a3 =>
              obtain ⟨rfl, rfl⟩ := same a1 a2
              have := stops_short a3
              omega
            | content a1 a2 a3 a4 =>
              obtain ⟨rfl, rfl⟩ := same a1 a2
              rw [if_neg (by rw [h5]; exact a4)]
        · rw [(C15_verify_piece sha info b idx).2 hk] at hret
          exact hret.elim
      | err e' =>
        have h4 := h3 e' rfl
        simp only at hret ⊢
        constructor
        · intro h
          simp only [Res.err.injEq] at h
          subst h
          exact .transfer ho h1 h4
        · intro h
          cases h with
          | opening hx => exact absurd (opens_det ho hx).1 (by simp)
          | transfer a1 a2 a3 =>
            obtain ⟨rfl, rfl⟩ := same a1 a2
            rw [stops_det h4 a3]
          | content a1 a2 a3 a4 =>
            obtain ⟨rfl, rfl⟩ := same a1 a2
            have := stops_short h4
            omega
      | panic => exact hret.elim
      | hang => exact hret.elim
    | err e' =>
      have ho := opens_forward p (some e') hi
      simp only [Res.err.injEq] at hret ⊢
      constructor
      · rintro rfl; exact .opening ho
      · intro h
        cases h with
        | opening hx => simpa using (opens_det ho hx).1
        | transfer a1 => exact absurd (opens_det ho a1).1 (by simp)
        | content a1 => exact absurd (opens_det ho a1).1 (by simp)
    | panic => exact hret.elim
    | hang => exact hret.elim

/-- C107: without a connection the error says so; with one it never does. -/
theorem C107_connection (sha : Bytes → Bytes) (m : Build) (dial : Dial) (f : Nat) (id hash : Bytes) (info : Info) (idx : Nat) :
    (getInfo m dial f id hash = .err .stream ↔ dial = .refused) ∧ (downloadPiece sha m dial f id info idx = .err .stream ↔ dial = .refused) := by
  have hopen : ∀ net hash e, (initPeer net (Peer.new ⟨[], 0⟩ hash id)).1 = .err e → e ≠ .stream := by
    rintro net hash e h rfl
    have := opens_forward (net := net) (hash := hash) (id := id) _ (some .stream) (Prod.ext h rfl)
    cases this
  refine ⟨⟨fun h => ?_, ?_⟩, ⟨fun h => ?_, ?_⟩⟩
  · cases dial with
    | refused => rfl
    | unparsable => cases h
    | connected net =>
      exfalso
      have hret : Returned (getInfoRun m net f id hash).1 := by
        have h : (getInfoRun m net f id hash).1 = _ := h
        rw [h]; trivial
      have := (C107_metadata m net f id hash hret .stream).mp h
      cases this with
      | opening hx => cases hx
  · rintro rfl; rfl
  · cases dial with
    | refused => rfl
    | unparsable => cases h
    | connected net =>
      exfalso
      simp only [downloadPiece, downloadRun] at h
      have hop := hopen net (info.computeInfoHash sha)
      generalize initPeer net (Peer.new ⟨[], 0⟩ (info.computeInfoHash sha) id) = r at h hop
      obtain ⟨r, p⟩ := r
      cases r with
      | ok u =>
        simp only at h
        have ht := totalLength_noErr (ε := PeerManagerError) m info
        cases htt : (info.getTotalLength m : Res PeerManagerError Nat) with
        | ok total =>
          rw [htt] at h
          simp only at h
          generalize (Downloadable.block info.pieceLength idx total).download m net f p = q at h
          obtain ⟨r, q⟩ := q
          cases r with
          | ok b =>
            simp only at h
            rcases Nat.lt_or_ge idx (info.pieces.length / 20) with hk | hk
            · rw [(C15_verify_piece sha info b idx).1 hk] at h
              simp only [Res.bind_ok] at h
              split at h <;> cases h
            · rw [(C15_verify_piece sha info b idx).2 hk] at h; cases h
          | err e => cases h
          | panic => cases h
          | hang => cases h
        | err e => exact ht e htt
        | panic => rw [htt] at h; cases h
        | hang => rw [htt] at h; cases h
      | err e => simp only [Res.err.injEq] at h; exact hop e rfl h
      | panic => cases h
      | hang => cases h
  · rintro rfl; rfl

/-- C77, exactly, for every peer: fetching metadata that comes to an end gives `i` exactly if the connection could be opened, as many answers came
as the announced size has blocks, and their data, in the order in which they came and whatever they were said to be, start with a
document that stands for `i`. -/
theorem C77_exact (m : Build) (net : Net) (f : Nat) (id hash : Bytes) (hret : Returned (getInfoRun m net f id hash).1) (i : Info) :
    (getInfoRun m net f id hash).1 = .ok i ↔
      ∃ data, Supplied net hash .info sizeAfter (came (getInfoRun m net f id hash).2.log) data ∧
        ∃ v bs rest, data = bs ++ rest ∧ Lenient v bs ∧ ReadsAs v i := by
  simp only [← C12_accepts_exactly]
  unfold getInfoRun at hret ⊢
  cases hi : initPeer net (Peer.new ⟨[], 0⟩ hash id) with
  | mk r p =>
    rw [hi] at hret
    cases r with
    | ok u =>
      obtain ⟨ho, hck, hsz, hne⟩ := opened_state hi
      have hcap : (Downloadable.info.capacity m p : Res DownloadableError Nat) = .ok (blockCount (sizeAfter (came p.log))) := by
        simp only [Downloadable.capacity]
        rw [stepByLen_spec _ _ (by decide), hsz]
        rfl
      have hpos : 0 < blockCount (sizeAfter (came p.log)) := by rw [← hsz]; unfold blockCount; omega
      obtain ⟨later, h1, h2, h3⟩ := transfer_ended m net .info f p hpos hck hcap
      simp only [] at hret ⊢
      generalize Downloadable.info.download m net f p = q at h1 h2 h3 hret
      obtain ⟨r, q⟩ := q
      have same : ∀ {ms later' : List Message} {c1 : Conn}, Opens net hash none ms c1 → came q.log = ms ++ later' → ms = came p.log ∧ later' = later := by
        intro ms later' c1 hm he
        obtain ⟨-, rfl, -⟩ := opens_det ho hm
        rw [h1] at he
        exact ⟨rfl, (List.append_cancel_left he).symm⟩
      cases r with
      | ok b =>
        obtain ⟨h4, h5⟩ := h2 b rfl
        simp only at hret ⊢
        constructor
        · intro h
          exact ⟨b, ⟨_, _, _, ho, h1, h4, h5⟩, mapErr_eq_ok h⟩
        · rintro ⟨data, ⟨ms, later', c, a1, a2, -, rfl⟩, h⟩
          obtain ⟨rfl, rfl⟩ := same a1 a2
          rw [h5, h]; rfl
      | err e' =>
        have h4 := stops_short (h3 e' rfl)
        simp only at hret ⊢
        constructor
        · intro h; cases h
        · rintro ⟨data, ⟨ms, later', c, a1, a2, a3, -⟩, -⟩
          obtain ⟨rfl, rfl⟩ := same a1 a2
          omega
      | panic => exact hret.elim
      | hang => exact hret.elim
    | err e' =>
      have ho := opens_forward p (some e') hi
      simp only at hret ⊢
      constructor
      · intro h; cases h
      · rintro ⟨data, ⟨ms, later', c, a1, -⟩, -⟩
        exact absurd (opens_det ho a1).1 (by simp)
    | panic => exact hret.elim
    | hang => exact hret.elim

/-- C35, exactly, for every peer: fetching a piece that comes to an end gives `data` exactly if the connection could be opened, as many answers came
as the piece has blocks, `data` is what they hold, in the order in which they came and whatever their place was said to be, and has the
listed hash. -/
theorem C35_exact (sha : Bytes → Bytes) (m : Build) (net : Net) (f : Nat) (id : Bytes) (info : Info) (idx : Nat) {T : Nat}
    (htot : total (listedFiles info) = T) (hT : T < 2 ^ 64) (hin : idx * info.pieceLength < T) (ho64 : info.pieceLength * (idx + 1) < 2 ^ 64)
    (hi32 : idx < 2 ^ 32) (hpl : 0 < info.pieceLength) (hret : Returned (downloadRun sha m net f id info idx).1) (data : Bytes) :
    (downloadRun sha m net f id info idx).1 = .ok data ↔
      Supplied net (info.computeInfoHash sha) (.block info.pieceLength idx T) (fun _ => pieceSize info.pieceLength idx T)
        (came (downloadRun sha m net f id info idx).2.log) data ∧ sha data = (info.pieces.drop (20 * idx)).take 20 := by
  unfold downloadRun at hret ⊢
  generalize info.computeInfoHash sha = hash at hret ⊢
  cases hi : initPeer net (Peer.new ⟨[], 0⟩ hash id) with
  | mk r p =>
    rw [hi] at hret
    cases r with
    | ok u =>
      obtain ⟨ho, hck, hsz, hne⟩ := opened_state hi
      have hlen := totalLength_listed (ε := PeerManagerError) (m := m) htot hT (by omega)
      have hcap : ((Downloadable.block info.pieceLength idx T).capacity m p : Res DownloadableError Nat) =
          .ok (blockCount (pieceSize info.pieceLength idx T)) := by
        simp only [Downloadable.capacity, realPieceLength_eq m info.pieceLength idx T hin ho64 hi32, Res.bind_ok]
        rw [stepByLen_spec _ _ (by decide)]
        rfl
      have hpos : 0 < blockCount (pieceSize info.pieceLength idx T) := by unfold blockCount pieceSize; omega
      obtain ⟨later, h1, h2, h3⟩ := transfer_ended m net (.block info.pieceLength idx T) f p hpos hck hcap
      simp only [hlen] at hret ⊢
      generalize (Downloadable.block info.pieceLength idx T).download m net f p = q at h1 h2 h3 hret
      obtain ⟨r, q⟩ := q
      have same : ∀ {ms later' : List Message} {c1 : Conn}, Opens net hash none ms c1 → came q.log = ms ++ later' → ms = came p.log ∧ later' = later := by
        intro ms later' c1 hm he
        obtain ⟨-, rfl, -⟩ := opens_det ho hm
        rw [h1] at he
        exact ⟨rfl, (List.append_cancel_left he).symm⟩
      cases r with
      | ok b =>
        obtain ⟨h4, h5⟩ := h2 b rfl
        simp only at hret ⊢
        rcases Nat.lt_or_ge idx (info.pieces.length / 20) with hk | hk
        · rw [(C15_verify_piece sha info b idx).1 hk] at hret ⊢
          simp only [Res.bind_ok, decide_eq_true_eq] at hret ⊢
          constructor
          · intro h
            split at h
            · rename_i hs
              cases h
              exact ⟨⟨_, _, _, ho, h1, h4, h5⟩, hs⟩
            · cases h
          · rintro ⟨⟨ms, later', c, a1, a2, -, rfl⟩, h⟩
            obtain ⟨rfl, rfl⟩ := same a1 a2
            rw [← h5, if_pos (by rw [h5]; exact h)]
        · rw [(C15_verify_piece sha info b idx).2 hk] at hret
          exact hret.elim
      | err e' =>
        have h4 := stops_short (h3 e' rfl)
        simp only at hret ⊢
        constructor
        · intro h; cases h
        · rintro ⟨⟨ms, later', c, a1, a2, a3, -⟩, -⟩
          obtain ⟨rfl, rfl⟩ := same a1 a2
          simp only at a3
          omega
      | panic => exact hret.elim
      | hang => exact hret.elim
    | err e' =>
      have ho := opens_forward p (some e') hi
      simp only at hret ⊢
      constructor
      · intro h; cases h
      · rintro ⟨⟨ms, later', c, a1, -⟩, -⟩
        exact absurd (opens_det ho a1).1 (by simp)
    | panic => exact hret.elim
    | hang => exact hret.elim

/-! ### Each of these happens -/

/-- What the samples send first: handshake, announcement of `size` bytes of metadata, unchoke. -/
def sampleOpening (hash size : Bytes) : Bytes := sampleHandshake hash ++ sampleExtension size ++ sampleUnchoke

/-- A block of metadata. -/
def sampleBlock (data : Bytes) : Bytes :=
  let d := b!"d8:msg_typei1e5:piecei0ee" ++ data
  beU32 (d.length + 2) ++ 20 :: 3 :: d

def seven : Bytes := List.replicate 20 7

/-- Non-vacuity of `C107_metadata` (and `C107_opening`): a silent peer; one for another torrent; a connection on which the third write fails; a peer that
only says hello; one that chokes; one that is silent after the opening; one whose five bytes are no metadata. -/
example : (getInfoRun .release (script []) 40 seven seven).1 = .err .handshake ∧
    (getInfoRun .release (script [sampleHandshake (List.replicate 20 8)]) 40 seven seven).1 = .err .handshake ∧
    (getInfoRun .release (fun t => ⟨if t = 0 then sampleHandshake seven else [], if t = 6 then .fail else .up⟩) 40 seven seven).1 = .err .handshakeMetadata ∧
    (getInfoRun .release (script [sampleHandshake seven]) 40 seven seven).1 = .err .peerNotReady ∧
    (getInfoRun .release (script [sampleOpening seven b!"5" ++ [0, 0, 0, 1, 0]]) 40 seven seven).1 = .err (.download .chokedPeer) ∧
    (getInfoRun .release (script [sampleOpening seven b!"5"]) 40 seven seven).1 = .err (.download .idle) ∧
    (getInfoRun .release (script [sampleOpening seven b!"5" ++ sampleBlock b!"d1:ae"]) 40 seven seven).1 =
      .err (.info (.metainfoError (.noKeyInDictionary b!"pieces"))) := by
  decide +kernel

/-- Metadata of a file of three bytes. -/
def tinyThree : Info := ⟨none, some 3, b!"f", 4, List.replicate 20 0⟩

/-- Non-vacuity of `C107_piece`: a peer that chokes, one that sends nothing, one that sends something else; the hypotheses hold of this piece. -/
example : (downloadRun (fun _ => seven) .debug (script [sampleOpening seven b!"5" ++ [0, 0, 0, 1, 0]]) 40 seven tinyThree 0).1 =
      .err (.pieceDownloadFailure .chokedPeer) ∧
    (downloadRun (fun _ => seven) .debug (script [sampleOpening seven b!"5"]) 40 seven tinyThree 0).1 = .err (.pieceDownloadFailure .idle) ∧
    (downloadRun (fun _ => seven) .debug (script [sampleOpening seven b!"5" ++ blockMessage 0 0 [1, 2, 3]]) 40 seven tinyThree 0).1 =
      .err .pieceVerificationFailure ∧
    total (listedFiles tinyThree) = 3 ∧ 0 * tinyThree.pieceLength < 3 ∧ tinyThree.pieceLength * 1 < 2 ^ 64 := by
  decide +kernel

/-- Non-vacuity of `C35_exact` and `C77_exact`: a block said to be from another place is taken; so are metadata in a block that is said to be the tenth. -/
example : (downloadRun (fun _ => List.replicate 20 0) .debug (script [sampleOpening (List.replicate 20 0) b!"5" ++ blockMessage 7 5 [1, 2, 3]]) 40 seven tinyThree 0).1 =
      .ok [1, 2, 3] ∧
    (getInfoRun .release (script [sampleOpening seven b!"71" ++ (beU32 98 ++ 20 :: 3 :: (b!"d8:msg_typei1e5:piecei9ee" ++
      (b!"d6:lengthi3e4:name1:f12:piece lengthi4e6:pieces20:" ++ List.replicate 20 0 ++ b!"e")))]) 40 seven seven).1 = .ok tinyThree := by
  decide +kernel

end RustBit
