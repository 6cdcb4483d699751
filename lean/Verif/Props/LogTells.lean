/-
C102: what the log tells about an attempt with a peer.
-/
import Verif.Proofs.LogTells
import Verif.Props.Honest

namespace RustBit
open Spec

theorem writeAll_fine {net : Net} (h : ∀ t, (net t).kind ≠ .fail) (c : Conn) : (c.writeAll net).1 = true := by
  simp [Conn.writeAll, h c.t]

theorem isNamed_eq : (isNamed : Message → Bool) = fun x => decide (x.id ∈ [0, 1, 2, 5, 19, 20]) := by
  funext x
  simp [isNamed]

/-- C102: when metadata is fetched from a peer, whatever it does and wherever the attempt is cut off, the log names exactly the messages that came, in
order, apart from those with other ids than 0, 1, 2, 5, 19 and 20; it shows exactly the messages `interested` in full; what it says could not be
sent was tried to send, and there is nothing of the kind if the connection never fails; and it speaks of no piece. Missing: the other messages, and
failures to send the extension handshake (`C102_refuted`). -/
theorem C102_metadata_partial (env : LogEnv) (m : Build) (net : Net) (f : Nat) (peerId hash : Bytes) :
    named (getInfoLog env m net f peerId hash) =
      ((came (getInfoRun m net f peerId hash).2.log).filter fun x => x.id ∈ [0, 1, 2, 5, 19, 20]).map (fun x => (peerId, x.id)) ∧
    printed (getInfoLog env m net f peerId hash) =
      ((came (getInfoRun m net f peerId hash).2.log).filter fun x => x.id = 2).map (fun x => (peerId, x)) ∧
    List.Sublist (unsent (getInfoLog env m net f peerId hash)) (written (getInfoRun m net f peerId hash).2.log) ∧
    ((∀ t, (net t).kind ≠ .fail) → unsent (getInfoLog env m net f peerId hash) = []) ∧
    started (getInfoLog env m net f peerId hash) = [] ∧ completed (getInfoLog env m net f peerId hash) = [] := by
  have hW : (∀ t, (net t).kind ≠ .fail) → ∀ c : Conn, (c.writeAll net).1 = true := fun h c => writeAll_fine h c
  have key : Tells (∀ t, (net t).kind ≠ .fail) (getInfoLog env m net f peerId hash) (Peer.new ⟨[], 0⟩ hash peerId) (getInfoRun m net f peerId hash).2 := by
    unfold getInfoLog getInfoRun
    have h := tells_initPeer env net hW (Peer.new ⟨[], 0⟩ hash peerId)
    generalize initPeer net (Peer.new ⟨[], 0⟩ hash peerId) = r at h
    obtain ⟨a, p⟩ := r
    cases a with
    | ok u =>
      refine h.trans ?_
      simp only []
      unfold downloadLoopLog Downloadable.download
      cases hc : (Downloadable.info.capacity m p : Res DownloadableError Nat) with
      | ok cap =>
        simp only []
        have h2 := tells_run env m net hW .info f ⟨p, ⟨[], cap, 0⟩, 0⟩
        unfold execute
        generalize execRun m net .info f ⟨p, ⟨[], cap, 0⟩, 0⟩ = r at h2
        cases r with
        | again s => simp only [List.append_nil]; exact h2
        | done r q =>
          cases r with
          | ok b =>
            refine h2.trans (Tells.quiet rfl rfl rfl ?_)
            intro r hr
            rcases decodeLog_quiet env b r hr with h | h
            · exact .inl h
            · exact .inr (.inl h)
          | err e => simp only [List.append_nil]; exact h2
          | panic => simp only [List.append_nil]; exact h2
          | hang => simp only [List.append_nil]; exact h2
      | err e => exact Tells.refl p
      | panic => exact Tells.refl p
      | hang => exact Tells.refl p
    | err e => simp only [List.append_nil]; exact h
    | panic => simp only [List.append_nil]; exact h
    | hang => simp only [List.append_nil]; exact h
  obtain ⟨-, -, h1, h2, ⟨new, h3, h4, h5, h6⟩, h7⟩ := key
  rw [show (Peer.new ⟨[], 0⟩ hash peerId).log = [] from rfl, List.nil_append] at h3
  rw [h3]
  refine ⟨?_, h5, h6, h7, h1, h2⟩
  rw [h4, isNamed_eq]
  rfl

/-- The errors with which the preparation of a connection ends. -/
theorem initPeer_errs (net : Net) (p : Peer) : ∀ e, (initPeer net p).1 = .err e → e = .handshake ∨ e = .handshakeMetadata ∨ e = .peerNotReady := by
  have hloop : ∀ k (p : Peer) e, (readyLoop net k p).1 = .err e → e = .peerNotReady := by
    intro k
    induction k with
    | zero => intro p e h; cases h; rfl
    | succ k ih =>
      intro p e h
      rw [readyLoop] at h
      obtain ⟨c, hc⟩ := readAndApply_cases net p
      rcases hc with hc | hc | hc | ⟨x, -, hc⟩ <;> rw [hc] at h <;> simp only [] at h
      · split at h
        · cases h
        · exact ih _ _ h
      · cases h
      · cases h
      · split at h
        · cases h
        · exact ih _ _ h
  intro e h
  unfold initPeer at h
  simp only [] at h
  generalize p.sendMessage net (newHandshake p.infoHash p.id) = p at h
  have htail : ∀ q : Peer, (if (!q.active) = true then ((.err .handshake : Res PeerManagerError Unit), q) else
      match (q.sendMessage net newInterested).sendMetadataHandshakeRequest net with
      | (false, p) => (.err .handshakeMetadata, p)
      | (true, p) => readyLoop net 10 p).1 = .err e → e = .handshake ∨ e = .handshakeMetadata ∨ e = .peerNotReady := by
    intro q h
    split at h
    · cases h; exact .inl rfl
    · split at h
      · cases h; exact .inr (.inl rfl)
      · exact .inr (.inr (hloop _ _ _ h))
  obtain ⟨c, hc⟩ := readAndApply_cases net p
  rcases hc with hc | hc | hc | ⟨x, -, hc⟩ <;> rw [hc] at h <;> simp only [] at h
  · exact htail { p with conn := c } h
  · cases h
  · cases h
  · exact htail (({ p with conn := c } : Peer).applyMessage x) h

theorem usum_noErr {ε : Type} (m : Build) (l : List Nat) (e : ε) : (usum m l : Res ε Nat) ≠ .err e := by
  cases m with
  | debug =>
    by_cases h : l.sum < 2 ^ 64
    · rw [usum_of_lt _ l h]; simp
    · rw [usum_debug l (by omega)]; simp
  | release => rw [usum_release l]; simp

theorem totalLength_noErr {ε : Type} (m : Build) (info : Info) (e : ε) : (info.getTotalLength m : Res ε Nat) ≠ .err e := by
  unfold Info.getTotalLength
  split
  · exact usum_noErr m _ e
  · split <;> simp

/-- The download of piece `idx` got everything it waited for. -/
def GotAll (sha : Bytes → Bytes) (m : Build) (net : Net) (f : Nat) (peerId : Bytes) (info : Info) (idx : Nat) : Prop :=
  ∃ p q total c, initPeer net (Peer.new ⟨[], 0⟩ (info.computeInfoHash sha) peerId) = (.ok (), p) ∧
    (info.getTotalLength m : Res PeerManagerError Nat) = .ok total ∧ (Downloadable.block info.pieceLength idx total).download m net f p = (.ok c, q)

theorem gotAll_iff (sha : Bytes → Bytes) (m : Build) (net : Net) (f : Nat) (peerId : Bytes) {info : Info} {idx : Nat} (hk : idx < info.pieces.length / 20) :
    GotAll sha m net f peerId info idx ↔ (∃ c, (downloadRun sha m net f peerId info idx).1 = .ok c) ∨
      (downloadRun sha m net f peerId info idx).1 = .err .pieceVerificationFailure := by
  unfold GotAll downloadRun
  have he := initPeer_errs net (Peer.new ⟨[], 0⟩ (info.computeInfoHash sha) peerId)
  generalize initPeer net (Peer.new ⟨[], 0⟩ (info.computeInfoHash sha) peerId) = r at he
  obtain ⟨a, p⟩ := r
  cases a with
  | ok u =>
    simp only []
    have ht := totalLength_noErr (ε := PeerManagerError) m info
    generalize (info.getTotalLength m : Res PeerManagerError Nat) = t at ht
    cases t with
    | ok total =>
      simp only []
      cases hd : (Downloadable.block info.pieceLength idx total).download m net f p with
      | mk a q =>
        cases a with
        | ok c =>
          simp only [(C15_verify_piece sha info c idx).1 hk, Res.bind_ok, decide_eq_true_eq]
          refine ⟨fun _ => ?_, fun _ => ⟨p, q, total, c, rfl, rfl, hd⟩⟩
          by_cases hx : sha c = (info.pieces.drop (20 * idx)).take 20
          · exact .inl ⟨c, by rw [if_pos hx]⟩
          · exact .inr (by rw [if_neg hx])
        | err e =>
          simp only [Res.err.injEq, reduceCtorEq, exists_false, false_or, iff_false]
          rintro ⟨p', q', t, c, h1, h2, h3⟩
          cases h1; cases h2
          rw [hd] at h3; cases h3
        | panic =>
          simp only [reduceCtorEq, exists_false, false_or, iff_false]
          rintro ⟨p', q', t, c, h1, h2, h3⟩
          cases h1; cases h2
          rw [hd] at h3; cases h3
        | hang =>
          simp only [reduceCtorEq, exists_false, false_or, iff_false]
          rintro ⟨p', q', t, c, h1, h2, h3⟩
          cases h1; cases h2
          rw [hd] at h3; cases h3
    | err e => exact absurd rfl (ht e)
    | panic => simp
    | hang => simp
  | err e => rcases he e rfl with rfl | rfl | rfl <;> simp
  | panic => simp
  | hang => simp

/-- What the log says of the download of a piece, and what happened. -/
theorem piece_tells (sha : Bytes → Bytes) (env : LogEnv) (m : Build) (net : Net) (f : Nat) (peerId endpoint : Bytes) (info : Info) (idx : Nat) {W : Prop}
    (hW : W → ∀ c : Conn, (c.writeAll net).1 = true) :
    ∃ l1 l2 a b : List LogRec, downloadRunLog sha env m net f peerId endpoint info idx = l1 ++ (a ++ l2 ++ b) ∧
      Tells W (l1 ++ l2) (Peer.new ⟨[], 0⟩ (info.computeInfoHash sha) peerId) (downloadRun sha m net f peerId info idx).2 ∧
      ((initPeer net (Peer.new ⟨[], 0⟩ (info.computeInfoHash sha) peerId)).1 = .ok () ∧ a = [.startDownload peerId idx endpoint] ∨
        (initPeer net (Peer.new ⟨[], 0⟩ (info.computeInfoHash sha) peerId)).1 ≠ .ok () ∧ a = []) ∧
      (GotAll sha m net f peerId info idx ∧ b = [.completedDownload peerId idx endpoint] ∨ ¬GotAll sha m net f peerId info idx ∧ b = []) := by
  unfold downloadRunLog downloadRun GotAll
  have h := tells_initPeer env net hW (Peer.new ⟨[], 0⟩ (info.computeInfoHash sha) peerId)
  have hid := h.id
  generalize initPeerLog env net (Peer.new ⟨[], 0⟩ (info.computeInfoHash sha) peerId) = l1 at h ⊢
  generalize initPeer net (Peer.new ⟨[], 0⟩ (info.computeInfoHash sha) peerId) = r at h hid ⊢
  obtain ⟨a, p⟩ := r
  have hp : p.id = peerId := hid
  have none : ∀ {x : Prop}, (x → False) → ∀ b : List LogRec, b = [] → (x ∧ b = [.completedDownload peerId idx endpoint] ∨ ¬x ∧ b = []) :=
    fun hx _ hb => .inr ⟨hx, hb⟩
  cases a with
  | ok u =>
    simp only []
    rw [hp]
    cases ht : (info.getTotalLength m : Res PeerManagerError Nat) with
    | ok total =>
      simp only []
      have hd : ∃ l2 b, downloadLoopLog env m net (.block info.pieceLength idx total) f p (fun _ => [.completedDownload peerId idx endpoint]) = l2 ++ b ∧ Tells W l2 p ((Downloadable.block info.pieceLength idx total).download m net f p).2 ∧
          ((∃ c, ((Downloadable.block info.pieceLength idx total).download m net f p).1 = .ok c) ∧ b = [.completedDownload peerId idx endpoint] ∨
            (∀ c, ((Downloadable.block info.pieceLength idx total).download m net f p).1 ≠ .ok c) ∧ b = []) := by
        unfold downloadLoopLog Downloadable.download
        cases hc : (Downloadable.capacity m (.block info.pieceLength idx total) p : Res DownloadableError Nat) with
        | ok cap =>
          simp only []
          have h2 := tells_run env m net hW (.block info.pieceLength idx total) f ⟨p, ⟨[], cap, 0⟩, 0⟩
          unfold execute
          generalize execRun m net (.block info.pieceLength idx total) f ⟨p, ⟨[], cap, 0⟩, 0⟩ = r at h2 ⊢
          generalize execRunLog env m net (.block info.pieceLength idx total) f ⟨p, ⟨[], cap, 0⟩, 0⟩ = l2 at h2 ⊢
          cases r with
          | again s => exact ⟨l2, [], rfl, h2, .inr ⟨by simp, rfl⟩⟩
          | done r q =>
            cases r with
            | ok b => exact ⟨l2, _, rfl, h2, .inl ⟨⟨b, rfl⟩, rfl⟩⟩
            | err e => exact ⟨l2, [], rfl, h2, .inr ⟨by simp, rfl⟩⟩
            | panic => exact ⟨l2, [], rfl, h2, .inr ⟨by simp, rfl⟩⟩
            | hang => exact ⟨l2, [], rfl, h2, .inr ⟨by simp, rfl⟩⟩
        | err e => exact ⟨[], [], rfl, Tells.refl p, .inr ⟨by simp, rfl⟩⟩
        | panic => exact ⟨[], [], rfl, Tells.refl p, .inr ⟨by simp, rfl⟩⟩
        | hang => exact ⟨[], [], rfl, Tells.refl p, .inr ⟨by simp, rfl⟩⟩
      obtain ⟨l2, b, e1, e2, e3⟩ := hd
      rw [e1]
      refine ⟨l1, l2, [.startDownload peerId idx endpoint], b, by simp, ?_, (.inl ⟨by trivial, rfl⟩), ?_⟩
      · refine h.trans ?_
        generalize (Downloadable.block info.pieceLength idx total).download m net f p = r at e2
        obtain ⟨a, q⟩ := r
        cases a <;> exact e2
      · rcases e3 with ⟨⟨c, hc⟩, hb⟩ | ⟨hn, hb⟩
        · exact .inl ⟨⟨p, _, total, c, rfl, rfl, Prod.ext hc rfl⟩, hb⟩
        · refine .inr ⟨?_, hb⟩
          rintro ⟨p', q, t, c, hp', ht', hd⟩
          cases hp'; cases ht'
          exact hn c (by rw [hd])
    | err e => exact ⟨l1, [], [.startDownload peerId idx endpoint], [], by simp, by simpa using h, (.inl ⟨by trivial, rfl⟩), none (by simp) _ rfl⟩
    | panic => exact ⟨l1, [], [.startDownload peerId idx endpoint], [], by simp, by simpa using h, (.inl ⟨by trivial, rfl⟩), none (by simp) _ rfl⟩
    | hang => exact ⟨l1, [], [.startDownload peerId idx endpoint], [], by simp, by simpa using h, (.inl ⟨by trivial, rfl⟩), none (by simp) _ rfl⟩
  | err e => exact ⟨l1, [], [], [], by simp, by simpa using h, .inr ⟨by simp, rfl⟩, none (by simp) _ rfl⟩
  | panic => exact ⟨l1, [], [], [], by simp, by simpa using h, .inr ⟨by simp, rfl⟩, none (by simp) _ rfl⟩
  | hang => exact ⟨l1, [], [], [], by simp, by simpa using h, .inr ⟨by simp, rfl⟩, none (by simp) _ rfl⟩

/-- C102: when a piece is fetched from a peer, whatever it does and wherever the attempt is cut off, the log names exactly the messages that came, in
order, apart from those with other ids than 0, 1, 2, 5, 19 and 20; it shows exactly the messages `interested` in full; what it says could not be
sent was tried to send, and there is nothing of the kind if the connection never fails; it says that the download was started exactly if the
connection was prepared, and that it was completed exactly if its outcome is the piece or that the piece is not the right one (for a piece of
the torrent). Missing: the other messages, failures to send the extension handshake, and that only right pieces are said to be completed
(`C102_refuted`). -/
theorem C102_piece_partial (sha : Bytes → Bytes) (env : LogEnv) (m : Build) (net : Net) (f : Nat) (peerId endpoint : Bytes) (info : Info) (idx : Nat) :
    named (downloadRunLog sha env m net f peerId endpoint info idx) =
      ((came (downloadRun sha m net f peerId info idx).2.log).filter fun x => x.id ∈ [0, 1, 2, 5, 19, 20]).map (fun x => (peerId, x.id)) ∧
    printed (downloadRunLog sha env m net f peerId endpoint info idx) =
      ((came (downloadRun sha m net f peerId info idx).2.log).filter fun x => x.id = 2).map (fun x => (peerId, x)) ∧
    List.Sublist (unsent (downloadRunLog sha env m net f peerId endpoint info idx)) (written (downloadRun sha m net f peerId info idx).2.log) ∧
    ((∀ t, (net t).kind ≠ .fail) → unsent (downloadRunLog sha env m net f peerId endpoint info idx) = []) ∧
    ((initPeer net (Peer.new ⟨[], 0⟩ (info.computeInfoHash sha) peerId)).1 = .ok () →
      started (downloadRunLog sha env m net f peerId endpoint info idx) = [(peerId, idx, endpoint)]) ∧
    ((initPeer net (Peer.new ⟨[], 0⟩ (info.computeInfoHash sha) peerId)).1 ≠ .ok () →
      started (downloadRunLog sha env m net f peerId endpoint info idx) = []) ∧
    (idx < info.pieces.length / 20 →
      ((∃ c, (downloadRun sha m net f peerId info idx).1 = .ok c) ∨ (downloadRun sha m net f peerId info idx).1 = .err .pieceVerificationFailure →
        completed (downloadRunLog sha env m net f peerId endpoint info idx) = [(peerId, idx, endpoint)]) ∧
      ((∀ c, (downloadRun sha m net f peerId info idx).1 ≠ .ok c) → (downloadRun sha m net f peerId info idx).1 ≠ .err .pieceVerificationFailure →
        completed (downloadRunLog sha env m net f peerId endpoint info idx) = [])) := by
  obtain ⟨l1, l2, a, b, e, hT, ha, hb⟩ := piece_tells sha env m net f peerId endpoint info idx (W := ∀ t, (net t).kind ≠ .fail) fun h c => writeAll_fine h c
  obtain ⟨-, -, h1, h2, ⟨new, h3, h4, h5, h6⟩, h7⟩ := hT
  rw [show (Peer.new ⟨[], 0⟩ (info.computeInfoHash sha) peerId).log = [] from rfl, List.nil_append] at h3
  rw [h3, e]
  have drop : ∀ {β : Type} (g : LogRec → Option β), (∀ x y z, g (.startDownload x y z) = none) → (∀ x y z, g (.completedDownload x y z) = none) →
      (l1 ++ (a ++ l2 ++ b)).filterMap g = (l1 ++ l2).filterMap g := by
    intro β g g1 g2
    have ea : a.filterMap g = [] := by rcases ha with ⟨-, rfl⟩ | ⟨-, rfl⟩ <;> simp [g1]
    have eb : b.filterMap g = [] := by rcases hb with ⟨-, rfl⟩ | ⟨-, rfl⟩ <;> simp [g2]
    rw [List.filterMap_append, List.filterMap_append, List.filterMap_append, ea, eb, List.nil_append, List.append_nil, ← List.filterMap_append]
  have hs : started (l1 ++ (a ++ l2 ++ b)) = started a := by
    have eb : started b = [] := by rcases hb with ⟨-, rfl⟩ | ⟨-, rfl⟩ <;> rfl
    rw [started, List.filterMap_append, List.append_eq_nil_iff] at h1
    simp only [started, List.filterMap_append] at eb ⊢
    rw [h1.1, h1.2, eb, List.nil_append, List.append_nil, List.append_nil]
  have hc : completed (l1 ++ (a ++ l2 ++ b)) = completed b := by
    have ea : completed a = [] := by rcases ha with ⟨-, rfl⟩ | ⟨-, rfl⟩ <;> rfl
    rw [completed, List.filterMap_append, List.append_eq_nil_iff] at h2
    simp only [completed, List.filterMap_append] at ea ⊢
    rw [h2.1, h2.2, ea, List.nil_append, List.nil_append, List.nil_append]
  refine ⟨?_, ?_, ?_, fun w => ?_, fun h => ?_, fun h => ?_, fun hk => ⟨fun h => ?_, fun hn1 hn2 => ?_⟩⟩
  · rw [named, drop _ (fun _ _ _ => rfl) (fun _ _ _ => rfl)]
    rw [named, isNamed_eq] at h4
    exact h4
  · rw [printed, drop _ (fun _ _ _ => rfl) (fun _ _ _ => rfl)]; exact h5
  · rw [unsent, drop _ (fun _ _ _ => rfl) (fun _ _ _ => rfl)]; exact h6
  · rw [unsent, drop _ (fun _ _ _ => rfl) (fun _ _ _ => rfl)]; exact h7 w
  · rw [hs]
    rcases ha with ⟨-, rfl⟩ | ⟨hx, -⟩
    · rfl
    · exact absurd h hx
  · rw [hs]
    rcases ha with ⟨hx, -⟩ | ⟨-, rfl⟩
    · exact absurd hx h
    · rfl
  · rw [hc]
    rcases hb with ⟨-, rfl⟩ | ⟨hx, -⟩
    · rfl
    · exact absurd ((gotAll_iff sha m net f peerId hk).mpr h) hx
  · rw [hc]
    rcases hb with ⟨hx, -⟩ | ⟨-, rfl⟩
    · rcases (gotAll_iff sha m net f peerId hk).mp hx with ⟨c, hx⟩ | hx
      · exact absurd hx (hn1 c)
      · exact absurd hx hn2
    · rfl

/-- C102 refuted: whatever the hash function, there are torrents and peers such that the log says that the download of a piece was completed, and
what came is not the piece. -/
theorem C102_refuted (sha : Bytes → Bytes) (hsha : ∀ b, (sha b).length = 20) (env : LogEnv) (m : Build) (peerId endpoint : Bytes) :
    ∃ info net f0, ∀ f, f0 ≤ f → completed (downloadRunLog sha env m net f peerId endpoint info 0) = [(peerId, 0, endpoint)] ∧
      (downloadRun sha m net f peerId info 0).1 = .err .pieceVerificationFailure := by
  have hone : piece [0] 1 0 = [0] := rfl
  obtain ⟨info, hinfo⟩ : ∃ info : Info, info = ⟨none, some 1, [120], 1, (sha [0]).map (· + 1)⟩ := ⟨_, rfl⟩
  have hpl : info.pieceLength = 1 := by rw [hinfo]
  have hk : 0 < info.pieces.length / 20 := by rw [hinfo]; simp [hsha]
  obtain ⟨f0, hf0⟩ := prompt_served hsha m (info := info) (d := [0]) (by rw [hinfo]; rfl) (by omega) (idx := 0) (by rw [hpl]; decide) (by decide)
    (by rw [hpl]; decide) (by decide) peerId
  refine ⟨info, promptPeer (info.computeInfoHash sha) (honestMsgs 0 (piece [0] info.pieceLength 0)), f0, fun f hf => ?_⟩
  obtain ⟨p, q, e1, e2, e3⟩ := hf0 f hf
  have hr : (downloadRun sha m (promptPeer (info.computeInfoHash sha) (honestMsgs 0 (piece [0] info.pieceLength 0))) f peerId info 0).1 =
      .err .pieceVerificationFailure := by
    unfold downloadRun
    rw [e1]
    simp only [e2, e3]
    rw [(C15_verify_piece sha info _ 0).1 hk]
    simp only [Res.bind_ok, hpl, hone]
    rw [if_neg]
    rw [hinfo]
    simp only [decide_eq_true_eq]
    intro hx
    rw [Nat.mul_zero, List.drop_zero, List.take_of_length_le (by simp [hsha])] at hx
    have hl := hsha [0]
    cases hs : sha [0] with
    | nil => rw [hs] at hl; cases hl
    | cons b l =>
      rw [hs, List.map_cons, List.cons.injEq] at hx
      have := congrArg UInt8.toNat hx.1
      rw [UInt8.toNat_add] at this
      have := UInt8.toNat_lt b
      rw [show UInt8.toNat 1 = 1 from rfl] at *
      omega
  exact ⟨((C102_piece_partial sha env m _ f peerId endpoint info 0).2.2.2.2.2.2 hk).1 (.inr hr), hr⟩

/-- A peer that announces metadata, has a piece, and lets us ask. -/
def haveNet : Net := promptPeer (List.replicate 20 0) [honestExt, (4, [0, 0, 0, 1]), (1, [])]

/-- C102 refuted: a message `have` came, and the log does not name it. -/
theorem C102_refuted_silent (env : LogEnv) (m : Build) :
    ∃ x ∈ came (getInfoRun m haveNet 1 (List.replicate 20 1) (List.replicate 20 0)).2.log,
      (List.replicate 20 1, x.id) ∉ named (getInfoLog env m haveNet 1 (List.replicate 20 1) (List.replicate 20 0)) := by
  have hc : (came (getInfoRun m haveNet 1 (List.replicate 20 1) (List.replicate 20 0)).2.log).map (·.id) = [19, 20, 4, 1] := by
    cases m <;> decide +kernel
  have h4 : (4 : UInt8) ∈ (came (getInfoRun m haveNet 1 (List.replicate 20 1) (List.replicate 20 0)).2.log).map (·.id) := by rw [hc]; decide
  obtain ⟨x, hx, hid⟩ := List.mem_map.mp h4
  refine ⟨x, hx, ?_⟩
  rw [(C102_metadata_partial env m haveNet 1 _ _).1, hid]
  intro hm
  obtain ⟨y, hy, he⟩ := List.mem_map.mp hm
  have := (List.mem_filter.mp hy).2
  simp only [decide_eq_true_eq, show y.id = 4 from (Prod.ext_iff.mp he).2] at this
  exact absurd this (by decide)

/-- Non-vacuity: the log of the same attempt names the other messages. -/
example (env : LogEnv) (m : Build) : named (getInfoLog env m haveNet 1 (List.replicate 20 1) (List.replicate 20 0)) =
    [(List.replicate 20 1, 19), (List.replicate 20 1, 20), (List.replicate 20 1, 1)] := by
  have hc : ((came (getInfoRun m haveNet 1 (List.replicate 20 1) (List.replicate 20 0)).2.log).filter fun x => x.id ∈ [0, 1, 2, 5, 19, 20]).map (·.id) =
      [19, 20, 1] := by cases m <;> decide +kernel
  rw [(C102_metadata_partial env m haveNet 1 _ _).1]
  rw [show (fun x : Message => ((List.replicate 20 1 : Bytes), x.id)) = (fun i => (List.replicate 20 1, i)) ∘ (·.id) from rfl, ← List.map_map, hc]
  rfl

/-- Non-vacuity: a peer says it is interested, which is shown; the connection never fails. -/
example (env : LogEnv) : printed (getInfoLog env .debug (promptPeer (List.replicate 20 0) [(2, [])]) 1 (List.replicate 20 1) (List.replicate 20 0)) =
    [(List.replicate 20 1, ⟨2, 0, .interested⟩)] ∧ ∀ t, (promptPeer (List.replicate 20 0) [(2, [])] t).kind ≠ .fail := by
  refine ⟨?_, fun t => by unfold promptPeer; split <;> simp⟩
  rw [(C102_metadata_partial env .debug _ 1 _ _).2.1]
  decide +kernel

/-- Non-vacuity: the connection fails at once, and the log says that the handshake could not be sent. -/
example (env : LogEnv) : unsent (getInfoLog env .debug (fun _ => ⟨[], .fail⟩) 1 (List.replicate 20 1) (List.replicate 20 0)) =
    [(newHandshake (List.replicate 20 0) (List.replicate 20 1)).asBytes] := by rfl

/-! ### Extension messages -/

theorem complaints_append (a b : List LogRec) : complaints (a ++ b) = complaints a ++ complaints b := List.filterMap_append

theorem noNumbers_append (a b : List LogRec) : noNumbers (a ++ b) = noNumbers a ++ noNumbers b := List.filterMap_append

theorem decodeLog_complaints (env : LogEnv) (c : Bytes) : complaints (decodeLog env c) = [] ∧ noNumbers (decodeLog env c) = [] := by
  unfold decodeLog
  split <;> exact ⟨rfl, rfl⟩

theorem applyLog_complaints (p : Peer) (m : Message) : complaints (p.applyLog m) = [] ∧ noNumbers (p.applyLog m) = [] := by
  unfold Peer.applyLog Peer.contentLog
  split
  · exact ⟨rfl, rfl⟩
  · split
    · split <;> exact ⟨rfl, rfl⟩
    · exact ⟨rfl, rfl⟩

/-- C102: what the log says of an extension message whose dictionary cannot be decoded is the error, and nothing is said of any other message; where the
dictionary can be decoded, those values of its `m` are printed that are no integers. `no` is what is logged if there is no message. -/
theorem C102_extension (env : LogEnv) (net : Net) (p : Peer) (no : List LogRec) (hno : ∀ r ∈ no, ∃ b, r = .noMessage b) (body : Bytes) (id : UInt8) (len : Nat) (c : Conn)
    (hr : readStream net p.conn = (some (body, id, len), c)) :
    (id ≠ 20 → complaints (p.readLog env net no) = [] ∧ noNumbers (p.readLog env net no) = []) ∧
    (id = 20 → ∀ ext doc, body = ext :: doc →
      (∀ e, Decoder.decode doc = .err e → complaints (p.readLog env net no) = [e] ∧ noNumbers (p.readLog env net no) = []) ∧
      (∀ v pos, Decoder.decode doc = .ok (v, pos) → complaints (p.readLog env net no) = [] ∧
        ∀ es, v.getValueFromDict b!"m" = .ok (.dictionary es) → noNumbers (p.readLog env net no) = (es.map (·.2)).filter (fun x => match x with | .integer _ => false | _ => true))) := by
  have h0 : complaints no = [] ∧ noNumbers no = [] := by
    constructor
    all_goals
      refine List.filterMap_eq_nil_iff.mpr (fun r h => ?_)
      obtain ⟨b, rfl⟩ := hno r h
      rfl
  obtain ⟨tail, ht, ht1, ht2⟩ : ∃ tail, p.readLog env net no = newRawLog env body id ++ tail ∧ complaints tail = [] ∧ noNumbers tail = [] := by
    unfold Peer.readLog
    simp only [hr]
    cases Message.newRaw body len id with
    | ok m => exact ⟨_, rfl, applyLog_complaints _ _⟩
    | err e => exact ⟨_, rfl, h0⟩
    | panic => exact ⟨_, rfl, rfl, rfl⟩
    | hang => exact ⟨_, rfl, rfl, rfl⟩
  simp only [ht, complaints_append, noNumbers_append, ht1, ht2, List.append_nil]
  unfold newRawLog
  refine ⟨fun h => by rw [if_neg h]; exact ⟨rfl, rfl⟩, ?_⟩
  rintro h ext doc rfl
  rw [if_pos h]
  have hs : (sliceFrom (ext :: doc) 1 : Res Bytes Bytes) = .ok doc := by simp [sliceFrom]
  unfold extensionLog
  simp only [hs, complaints_append, noNumbers_append, decodeLog_complaints, List.nil_append]
  refine ⟨fun e he => by rw [he]; exact ⟨rfl, rfl⟩, fun v pos hv => ?_⟩
  rw [hv]
  simp only []
  have key : ∀ es : List (Bytes × Metainfo), complaints (noIntegers es) = [] ∧
      noNumbers (noIntegers es) = (es.map (·.2)).filter (fun x => match x with | .integer _ => false | _ => true) := by
    intro es
    induction es with
    | nil => exact ⟨rfl, rfl⟩
    | cons a t ih =>
      obtain ⟨k, v⟩ := a
      cases v <;> simp [noIntegers, complaints, noNumbers] at ih ⊢ <;> exact ih
  refine ⟨?_, fun es he => ?_⟩
  · split
    · exact (key _).1
    · rfl
  · rw [he]
    exact (key es).2

/-- Non-vacuity: an extension message that cannot be decoded, and one that offers an extension under no number. -/
example : let env : LogEnv := ⟨fun _ => 0, fun _ => .json [] 0 0⟩
    complaints ((freshPeer [] []).readLog env (script [[0, 0, 0, 4, 20, 0, 105, 101]]) []) = [.badNumberDecode []] ∧
    (noNumbers ((freshPeer [] []).readLog env (script [[0, 0, 0, 21, 20, 0] ++ b!"d1:md1:xi1e1:y1:zee"]) [])).length = 1 := by
  decide +kernel

end RustBit
