/-
Property C108: a peer that follows the protocol cannot crash an attempt.
-/
import Verif.Proofs.Crash
import Verif.Props.Honest

namespace RustBit
open Spec

/-- C05, for valid documents, whatever they hold and whatever follows: the decoder does not panic. Missing: inputs that are no documents, and documents with
empty strings in lists, on which it does not end. -/
theorem C05_valid_partial {v : BVal} {doc : Bytes} (h : IsBencode v doc) (rest : Bytes) : Decoder.decode (doc ++ rest) ≠ .panic :=
  fun e => valid_not_cut h rest ((C05_panics_exactly_partial _).mp e)

/-- Non-vacuity: a document the decoder misreads (an empty string as a value in a dictionary). -/
example : IsBencode (.dict [(b!"a", .str []), (b!"b", .int (-5))]) b!"d1:a0:1:bi-5ee" ∧ (∃ e, Decoder.decode b!"d1:a0:1:bi-5ee" = .err e) := by
  refine ⟨?_, .badNumberDecode [], rfl⟩
  have h1 : ∀ c : UInt8, IsStr [c] (b!"1:" ++ [c]) := fun c => ⟨b!"1", ⟨by simp, by decide, rfl, by decide⟩, rfl⟩
  have h0 : IsBencode (.str []) b!"0:" := .str ⟨b!"0", ⟨by simp, by decide, rfl, by decide⟩, rfl⟩
  have h5 : IsBencode (.int (-5)) b!"i-5e" := .int (.neg (n := 5) (ds := b!"5") (by decide) ⟨by simp, by decide, rfl, by decide⟩)
  exact .dict (.cons (h1 97) h0 (.cons (h1 98) h5 .nil))

/-- C24, for messages that follow the protocol: none of them makes the program panic. -/
theorem C24_proper_partial {id : UInt8} {body : Bytes} (h : Proper id body) (len : Nat) : Message.newRaw body len id ≠ .panic :=
  fun e => not_lethal_of_proper h ((C24_panics_exactly body len id).mp e)

/-! ### Pieces -/

/-- What the metadata must be like for a piece to exist. -/
structure HasPiece (info : Info) (idx n : Nat) : Prop where
  total : total (listedFiles info) = n
  fits : n < 2 ^ 64
  begins : idx * info.pieceLength < n
  ends : info.pieceLength * (idx + 1) < 2 ^ 64
  index : idx < 2 ^ 32
  hash : idx < info.pieces.length / 20

theorem HasPiece.run {info : Info} {idx n : Nat} (hi : HasPiece info idx n) {net : Net} {Inv : Peer → Prop} (h : KeepsSafe net Inv) (sha : Bytes → Bytes) (m : Build)
    (f : Nat) (peerId : Bytes) (h0 : Inv (Peer.new ⟨[], 0⟩ (info.computeInfoHash sha) peerId)) :
    downloadPiece sha m (.connected net) f peerId info idx ≠ .panic :=
  downloadRun_keeps h sha m f peerId info (totalLength_listed hi.total hi.fits (Nat.lt_of_le_of_lt (Nat.zero_le _) hi.begins)) (Nat.le_of_lt hi.begins)
    hi.ends hi.fits hi.index hi.hash h0

theorem keeps_whole {P : UInt8 → Bytes → Prop} {net : Net} (h : SendsWhole P net) (hP : ∀ id body, P id body → Proper id body) :
    KeepsSafe net (fun p => Whole P p.conn.buf) where
  write p b hp := by
    show Whole P (p.conn.advance net).buf
    rw [advance_eq_after]
    exact whole_after h hp 1
  read p hp := (readStream_whole h hp).1
  safe p body id len hp e := not_lethal_of_proper (hP _ _ ((readStream_whole h hp).2 body id len e))
  got p body id len m hp _ _ := by
    rw [applyMessage_conn]
    exact (readStream_whole h hp).1

/-- C108, for peers whose messages arrive whole and that send no keep-alives: whatever they send and whenever, an attempt to download a piece that exists does
not panic. Missing: messages in segments (`C108_refuted_split`), keep-alives (`C108_refuted_keepalive`), failing calls. -/
theorem C108_whole_partial {net : Net} (h : SendsWhole Proper net) {info : Info} {idx n : Nat} (hi : HasPiece info idx n) (sha : Bytes → Bytes) (m : Build)
    (f : Nat) (peerId : Bytes) : downloadPiece sha m (.connected net) f peerId info idx ≠ .panic :=
  hi.run (keeps_whole h (fun _ _ x => x)) sha m f peerId .nil

/-- A message that a connection may be read to hold: some calls have been made, and what is in the receive buffer is the last of what has arrived. -/
def MayRead (net : Net) (id : UInt8) (body : Bytes) : Prop :=
  ∃ c len, LastOf net c ∧ (readStream net c).1 = some (body, id, len)

theorem keeps_lastOf {net : Net} (h : ∀ id body, MayRead net id body → ¬ Lethal id body) : KeepsSafe net (fun p => LastOf net p.conn) where
  write p b hp := by
    show LastOf net (p.conn.advance net)
    rw [advance_eq_after]
    exact lastOf_after _ hp
  read p hp := readStream_closed lastOf_after lastOf_drop hp
  safe p body id len hp e := h id body ⟨p.conn, len, hp, e⟩
  got p body id len m hp _ _ := by
    rw [applyMessage_conn]
    exact readStream_closed lastOf_after lastOf_drop hp

/-- C108, whatever the peer and the network do: an attempt to download a piece that exists panics only on a message that is too short for its kind or
whose document is cut short. -/
theorem C108_causes {net : Net} {info : Info} {idx n : Nat} (hi : HasPiece info idx n) (sha : Bytes → Bytes) (m : Build) (f : Nat) (peerId : Bytes)
    (hp : downloadPiece sha m (.connected net) f peerId info idx = .panic) : ∃ id body, MayRead net id body ∧ Lethal id body := by
  apply Classical.byContradiction
  intro hn
  exact hi.run (keeps_lastOf (fun id body h1 h2 => hn ⟨id, body, h1, h2⟩)) sha m f peerId (List.nil_suffix) hp

theorem execRun_lethal {m : Build} {net : Net} {d : Downloadable} {body : Bytes} {id : UInt8} {len : Nat} (hl : Lethal id body) :
    ∀ (k : Nat) (s t : DState), execRun m net d k s = .again t → (readStream net t.peer.conn).1 = some (body, id, len) →
    ∀ f, ∃ q, execRun m net d (k + 1 + f) s = .done .panic q := by
  intro k
  induction k with
  | zero =>
    intro s t h hr f
    cases h
    rw [Nat.zero_add, Nat.add_comm 1 f, execRun]
    have e : ∃ q, execStep m net d s = .done .panic q := by
      unfold execStep Peer.readMessage
      cases hx : readStream net s.peer.conn with | mk r c => ?_
      rw [hx] at hr
      simp only at hr
      subst hr
      simp only [(C24_panics_exactly body len id).mpr hl]
      exact ⟨_, rfl⟩
    obtain ⟨q, e⟩ := e
    rw [e]
    exact ⟨q, rfl⟩
  | succ k ih =>
    intro s t h hr f
    rw [execRun] at h
    rw [show k + 1 + 1 + f = (k + 1 + f) + 1 by omega, execRun]
    cases hx : execStep m net d s with
    | again s' => rw [hx] at h; exact ih s' t h hr f
    | done r q => rw [hx] at h; cases h

/-- C108, conversely: whenever during the exchange of blocks such a message is next, the attempt panics. -/
theorem C108_lethal {net : Net} {sha : Bytes → Bytes} {m : Build} {peerId : Bytes} {info : Info} {idx total cap k f : Nat} {p : Peer} {t : DState} {body : Bytes}
    {id : UInt8} {len : Nat} (hinit : initPeer net (Peer.new ⟨[], 0⟩ (info.computeInfoHash sha) peerId) = (.ok (), p))
    (htot : (info.getTotalLength m : Res PeerManagerError Nat) = .ok total)
    (hcap : ((Downloadable.block info.pieceLength idx total).capacity m p : Res DownloadableError Nat) = .ok cap)
    (hrun : execRun m net (.block info.pieceLength idx total) k ⟨p, ⟨[], cap, 0⟩, 0⟩ = .again t)
    (hnext : (readStream net t.peer.conn).1 = some (body, id, len)) (hl : Lethal id body) (hf : k < f) :
    downloadPiece sha m (.connected net) f peerId info idx = .panic := by
  obtain ⟨q, hq⟩ := execRun_lethal hl k _ t hrun hnext (f - (k + 1))
  rw [show k + 1 + (f - (k + 1)) = f by omega] at hq
  simp only [downloadPiece, downloadRun, hinit, htot, Downloadable.download, hcap, execute, hq]

/-- Metadata of one byte. -/
def byteInfo : Info := ⟨none, some 1, b!"a", 1, List.replicate 20 0⟩

/-- C108, the metadata: an attempt with metadata that gives no length at all panics as soon as the peer is ready. (In the program the actor of the torrent has
panicked on such metadata before, in the same way.) -/
theorem C108_lengthless {net : Net} {sha : Bytes → Bytes} {m : Build} {peerId : Bytes} {info : Info} {idx f : Nat} {p : Peer}
    (hinit : initPeer net (Peer.new ⟨[], 0⟩ (info.computeInfoHash sha) peerId) = (.ok (), p)) (h1 : info.files = none) (h2 : info.length = none) :
    downloadPiece sha m (.connected net) f peerId info idx = .panic := by
  have htot : (info.getTotalLength m : Res PeerManagerError Nat) = .panic := by simp [Info.getTotalLength, h1, h2]
  simp only [downloadPiece, downloadRun, hinit, htot]

/-- A peer that is ready and then sends an empty block. -/
def emptyBlock : Net := fun t =>
  if t = 0 then ⟨19 :: b!"BitTorrent protocol" ++ List.replicate 8 0 ++ List.replicate 20 7 ++ List.replicate 20 1, .up⟩
  else if t = 7 then ⟨[0, 0, 0, 28, 20, 0] ++ b!"d1:mde13:metadata_sizei9ee" ++ [0, 0, 0, 1, 1], .up⟩
  else if t = 24 then ⟨[0, 0, 0, 1, 7], .up⟩ else ⟨[], .up⟩

/-- The state of a loop that goes on. -/
def Flow.state : Flow → DState
  | .again s => s
  | .done _ p => ⟨p, ⟨[], 0, 0⟩, 0⟩

/-- Non-vacuity: this peer, after one round in which nothing came. -/
example : ∃ p t, initPeer emptyBlock (Peer.new ⟨[], 0⟩ (byteInfo.computeInfoHash fun _ => List.replicate 20 7) []) = (.ok (), p) ∧
    (byteInfo.getTotalLength .release : Res PeerManagerError Nat) = .ok 1 ∧
    ((Downloadable.block byteInfo.pieceLength 0 1).capacity .release p : Res DownloadableError Nat) = .ok 1 ∧
    execRun .release emptyBlock (.block byteInfo.pieceLength 0 1) 1 ⟨p, ⟨[], 1, 0⟩, 0⟩ = .again t ∧ (readStream emptyBlock t.peer.conn).1 = some ([], 7, 0) ∧
    Lethal 7 [] :=
  ⟨(initPeer emptyBlock (Peer.new ⟨[], 0⟩ (byteInfo.computeInfoHash fun _ => List.replicate 20 7) [])).2,
    (execRun .release emptyBlock (.block byteInfo.pieceLength 0 1) 1
      ⟨(initPeer emptyBlock (Peer.new ⟨[], 0⟩ (byteInfo.computeInfoHash fun _ => List.replicate 20 7) [])).2, ⟨[], 1, 0⟩, 0⟩).state,
    by decide +kernel, by decide +kernel, by decide +kernel, by decide +kernel, by decide +kernel, .inl ⟨.inr rfl, by decide⟩⟩

/-- Non-vacuity: it is ready, whatever the metadata says. -/
example (f : Nat) : downloadPiece (fun _ => List.replicate 20 7) .release (.connected emptyBlock) f [] ⟨none, none, b!"a", 1, []⟩ 0 = .panic :=
  C108_lengthless (p := (initPeer emptyBlock (Peer.new ⟨[], 0⟩ (List.replicate 20 7) [])).2) (by decide +kernel) rfl rfl

/-! ### Metadata -/

/-- The peer named its id for metadata messages. -/
def NamedId (p : Peer) : Prop := mapGet p.extensions b!"ut_metadata" ≠ none

theorem newRaw_offers {body : Bytes} {len : Nat} {id : UInt8} {m : Message} (h : Message.newRaw body len id = .ok m) (ho : OffersMetadata id body)
    {e : ExtensionMessage} (he : m.content = .extension e) (hs : e.metadataSize.isSome = true) : mapGet e.extensions b!"ut_metadata" ≠ none := by
  obtain ⟨-, -, h3⟩ := newRaw_id h
  have hid := (contentOf_shape h3).2.1.mp ⟨e, he⟩
  subst hid
  have e20 : Message.contentOf body 20 = (do
      let e ← ExtensionMessage.fromBytes body
      .ok (.extension e)) := by
    unfold Message.contentOf
    rw [if_neg (by decide), if_neg (by decide), if_neg (by decide), if_pos rfl]
  rw [e20, he] at h3
  obtain ⟨e', h4, h5⟩ := bind_eq_ok h3
  simp only [Res.ok.injEq, ContentType.extension.injEq] at h5
  subst h5
  cases body with
  | nil => cases h4
  | cons ext payload =>
    obtain ⟨v, n, hh, -, -, -, -, h6, h7⟩ := C27_read ext payload e' h4
    rw [h7]
    have := ho rfl ext payload v n rfl hh (by rw [← h6]; intro hx; rw [hx] at hs; cases hs)
    simpa using this

theorem applyMessage_named {p : Peer} {body : Bytes} {len : Nat} {id : UInt8} {m : Message} (h : Message.newRaw body len id = .ok m) (ho : OffersMetadata id body) :
    (NamedId p → NamedId (p.applyMessage m)) ∧
    ((p.metadataSize ≠ 0 → NamedId p) → (p.applyMessage m).metadataSize ≠ 0 → NamedId (p.applyMessage m)) ∧
    (p.metadataSize < 2 ^ 64 → (p.applyMessage m).metadataSize < 2 ^ 64) := by
  have key : ((p.applyMessage m).extensions = p.extensions ∧ (p.applyMessage m).metadataSize = p.metadataSize) ∨
      (NamedId (p.applyMessage m) ∧ (p.applyMessage m).metadataSize < 2 ^ 64) := by
    simp only [Peer.applyMessage, Peer.applyState, Peer.applyContent, NamedId]
    split
    · exact .inl ⟨rfl, rfl⟩
    · split
      · exact .inl ⟨rfl, rfl⟩
      · split
        · split
          · exact .inl ⟨rfl, rfl⟩
          · rename_i e he
            split
            · rename_i hs
              have hs' : e.metadataSize.isSome = true := hs
              refine .inr ⟨newRaw_offers h ho he hs', ?_⟩
              cases hx : e.metadataSize with
              | none => simp
              | some n => exact metadataSize_fits ⟨body, len, id, h⟩ he hx
            · exact .inl ⟨rfl, rfl⟩
          · exact .inl ⟨rfl, rfl⟩
          · exact .inl ⟨rfl, rfl⟩
        · exact .inl ⟨rfl, rfl⟩
  rcases key with ⟨h1, h2⟩ | ⟨h1, h2⟩
  · refine ⟨fun hn => ?_, fun hn hs => ?_, fun hs => by rw [h2]; exact hs⟩
    · simpa [NamedId, h1] using hn
    · rw [h2] at hs
      have := hn hs
      simpa [NamedId, h1] using this
  · exact ⟨fun _ => h1, fun _ _ => h1, fun _ => h2⟩

/-- More can be kept: what is known of the metadata. -/
theorem KeepsSafe.named {net : Net} {Inv : Peer → Prop} (h : KeepsSafe net Inv)
    (ho : ∀ p body id len, Inv p → (readStream net p.conn).1 = some (body, id, len) → OffersMetadata id body) :
    KeepsSafe net (fun p => Inv p ∧ NamedId p) ∧ KeepsSafe net (fun p => Inv p ∧ (p.metadataSize ≠ 0 → NamedId p) ∧ p.metadataSize < 2 ^ 64) := by
  refine ⟨⟨?_, ?_, ?_, ?_⟩, ⟨?_, ?_, ?_, ?_⟩⟩
  · exact fun p b hp => ⟨h.write p b hp.1, hp.2⟩
  · exact fun p hp => ⟨h.read p hp.1, hp.2⟩
  · exact fun p body id len hp e => h.safe p body id len hp.1 e
  · intro p body id len m hp e hm
    exact ⟨h.got p body id len m hp.1 e hm, (applyMessage_named hm (ho p body id len hp.1 e)).1 hp.2⟩
  · exact fun p b hp => ⟨h.write p b hp.1, hp.2⟩
  · exact fun p hp => ⟨h.read p hp.1, hp.2⟩
  · exact fun p body id len hp e => h.safe p body id len hp.1 e
  · intro p body id len m hp e hm
    have := applyMessage_named (p := { p with conn := (readStream net p.conn).2 }) hm (ho p body id len hp.1 e)
    exact ⟨h.got p body id len m hp.1 e hm, this.2.1 hp.2.1, this.2.2 hp.2.2⟩

theorem bind_ne_panic {ε α β : Type} {x : Res ε α} {k : α → Res ε β} (h : x ≠ .panic) (hk : ∀ a, k a ≠ .panic) : (x >>= k) ≠ .panic := by
  cases x with
  | ok a => exact hk a
  | panic => exact absurd rfl h
  | _ => simp

theorem fromMetainfo_ne_panic (a : Metainfo) : Info.fromMetainfo a ≠ .panic := by
  have hd : a.getDictContent ≠ .panic := by cases a <;> simp [Metainfo.getDictContent]
  have h1 : ∀ k, a.getBytesFromDict k ≠ .panic := fun k => bind_ne_panic hd fun d => by
    cases mapGet d k with
    | none => simp
    | some v => cases v <;> simp [Metainfo.getBytesContent]
  have h2 : ∀ k, a.getIntegerFromDict k ≠ .panic := fun k => bind_ne_panic hd fun d => by
    cases mapGet d k with
    | none => simp
    | some v => cases v <;> simp [Metainfo.getIntegerContent]
  have h3 : ∀ k, a.getStringFromDict k ≠ .panic := fun k => bind_ne_panic hd fun d => by
    cases mapGet d k with
    | none => simp
    | some v =>
      cases v <;> simp only [Metainfo.getStringContent]
      · simp
      · simp
      · split <;> simp
      · simp
      · simp
  have h4 : ∀ k, a.getListFromDict k ≠ .panic := fun k => bind_ne_panic hd fun d => by
    cases mapGet d k with
    | none => simp
    | some v => cases v <;> simp [Metainfo.getListContent]
  have hm : ∀ {α : Type} {x : Res MetainfoError α}, x ≠ .panic → x.mapErr InfoError.metainfoError ≠ .panic := by
    intro α x h
    cases x <;> simp_all [Res.mapErr]
  have ho : ∀ {α : Type} {x : Res MetainfoError α}, x ≠ .panic → (x.toOption : Res InfoError (Option α)) ≠ .panic := by
    intro α x h
    cases x <;> simp_all [Res.toOption]
  unfold Info.fromMetainfo
  refine bind_ne_panic (hm (h1 _)) fun _ => bind_ne_panic (hm (h2 _)) fun _ => bind_ne_panic (hm (h3 _)) fun _ =>
    bind_ne_panic (ho (h2 _)) fun _ => bind_ne_panic (ho (h4 _)) fun _ => by simp

theorem fromBytes_panic {b : Bytes} (h : Info.fromBytes b = .panic) : Cut b := by
  apply (C05_panics_exactly_partial b).mp
  unfold Info.fromBytes at h
  cases hd : Decoder.decode b with
  | ok x =>
    exfalso
    rw [hd] at h
    obtain ⟨v, k⟩ := x
    simp only [Res.mapErr_ok, Res.bind_ok] at h
    exact fromMetainfo_ne_panic v h
  | err e => rw [hd] at h; cases h
  | panic => rfl
  | hang => rw [hd] at h; cases h

/-- The metadata a peer was made to send: the bytes put together once it was ready. -/
def Obtained (m : Build) (net : Net) (f : Nat) (peerId hash md : Bytes) : Prop :=
  ∃ p q, initPeer net (Peer.new ⟨[], 0⟩ hash peerId) = (.ok (), p) ∧ Downloadable.info.download m net f p = (.ok md, q)

theorem getInfo_keeps {net : Net} {Inv : Peer → Prop} (h : KeepsSafe net Inv)
    (ho : ∀ p body id len, Inv p → (readStream net p.conn).1 = some (body, id, len) → OffersMetadata id body) (m : Build) (f : Nat) (peerId hash : Bytes)
    (h0 : Inv (Peer.new ⟨[], 0⟩ hash peerId)) (hp : getInfo m (.connected net) f peerId hash = .panic) : ∃ md, Obtained m net f peerId hash md ∧ Cut md := by
  obtain ⟨hk1, hk2⟩ := h.named ho
  unfold getInfo getInfoRun at hp
  obtain ⟨h1, h2, h3⟩ := initPeer_keeps hk2 (p := Peer.new ⟨[], 0⟩ hash peerId) ⟨h0, fun x => absurd rfl x, by simp [Peer.new]⟩
  unfold Obtained
  cases hx : initPeer net (Peer.new ⟨[], 0⟩ hash peerId) with | mk r q => ?_
  rw [hx] at h1 h2 h3
  simp only [hx] at hp
  cases r with
  | ok u =>
    simp only [] at hp h2 h3
    have hready := h3 trivial
    have hsz : q.metadataSize ≠ 0 := by
      simp only [Peer.isReady, Bool.and_eq_true, decide_eq_true_eq] at hready
      exact hready.1
    have hcap : (Downloadable.info.capacity m q : Res DownloadableError Nat) = .ok ((q.metadataSize + 16383) / 16384) := by
      simp only [Downloadable.capacity]
      rw [stepByLen_spec _ _ (by decide)]
      rfl
    have hreq : ∀ p i, (Inv p ∧ NamedId p) → i < (q.metadataSize + 16383) / 16384 → (Downloadable.info.request m p i : Res DownloadableError Message) ≠ .panic := by
      intro p i hp' hi
      have hx := hp'.2
      unfold NamedId at hx
      simp only [Downloadable.request]
      cases hy : mapGet p.extensions b!"ut_metadata" with
      | none => exact absurd hy hx
      | some ext =>
        simp only []
        rw [newMetadata_eq ext i (by have := h2.2.2; omega)]
        simp
    have hex := execute_keeps hk1 hreq f (p := q) ⟨h2.1, h2.2.1 hsz⟩
    cases hd : Downloadable.info.download m net f q with | mk r q' => ?_
    rw [hd] at hp
    have hd' := hd
    simp only [Downloadable.download, hcap] at hd'
    rw [hd'] at hex
    cases r with
    | ok md =>
      refine ⟨md, ⟨q, q', rfl, hd⟩, fromBytes_panic ?_⟩
      simp only [] at hp
      cases hb : Info.fromBytes md <;> rw [hb] at hp <;> simp_all [Res.mapErr]
    | err e => cases hp
    | panic => exact absurd rfl hex
    | hang => cases hp
  | err e => cases hp
  | panic => exact absurd rfl h1
  | hang => cases hp

/-- C108, whatever the peer and the network do: an attempt to get the metadata panics only on such a message, on one that tells the size of the metadata but
not how to ask for it, or on metadata cut short. -/
theorem C108_info_causes {net : Net} (m : Build) (f : Nat) (peerId hash : Bytes) (hp : getInfo m (.connected net) f peerId hash = .panic) :
    (∃ id body, MayRead net id body ∧ (Lethal id body ∨ ¬ OffersMetadata id body)) ∨ ∃ md, Obtained m net f peerId hash md ∧ Cut md := by
  by_cases hn : ∃ id body, MayRead net id body ∧ (Lethal id body ∨ ¬ OffersMetadata id body)
  · exact .inl hn
  · refine .inr (getInfo_keeps (keeps_lastOf (fun id body h1 h2 => hn ⟨id, body, h1, .inl h2⟩)) (fun p body id len hp' e => ?_) m f peerId hash List.nil_suffix hp)
    apply Classical.byContradiction
    intro hx
    exact hn ⟨id, body, ⟨p.conn, len, hp', e⟩, .inr hx⟩

/-- C108 for metadata, for peers whose messages arrive whole, that send no keep-alives, and that tell how to ask for the metadata if they tell its size: an
attempt panics only on metadata cut short. Missing: as above, and `C108_refuted_metadata`. -/
theorem C108_info_partial {net : Net} (h : SendsWhole (fun id body => Proper id body ∧ OffersMetadata id body) net) (m : Build) (f : Nat) (peerId hash : Bytes)
    (hp : getInfo m (.connected net) f peerId hash = .panic) : ∃ md, Obtained m net f peerId hash md ∧ Cut md :=
  getInfo_keeps (keeps_whole h (fun _ _ x => x.1)) (fun _ body id len hx e => ((readStream_whole h hx).2 body id len e).2) m f peerId hash .nil hp

/-! ### Peers that do crash an attempt -/

/-- After the right handshake the peer is listened to. -/
theorem initPeer_greeted {net : Net} {flags hash hisId hs rest : Bytes} (hh : IsHandshake flags hash hisId hs) (ha : arrivals net 0 3 = hs ++ rest)
    (hf : ∀ t, (net t).kind ≠ .fail) (peerId : Bytes) :
    ∃ q, initPeer net (Peer.new ⟨[], 0⟩ hash peerId) = readyLoop net 10 q ∧ q.conn = ⟨rest ++ arrivals net 3 4, 7⟩ ∧ q.choked = true ∧ q.metadataSize = 0 := by
  obtain ⟨m, hm, hmh, -⟩ := C23_hash_position (ε := Bytes) flags hash hisId hs hh
  have e1 : readAndApply net ((Peer.new ⟨[], 0⟩ hash peerId).sendMessage net (newHandshake hash peerId)) =
      (.ok (), ({ (Peer.new ⟨[], 0⟩ hash peerId) with
        conn := ⟨rest ++ arrivals net 3 2, 5⟩
        log := [.sent (newHandshake hash peerId).asBytes] } : Peer).applyMessage ⟨19, 68, .handshake m⟩) := by
    have hr := readStream_handshake_arriving (net := net) (c := ⟨(net 0).arrive, 1⟩) (rest := rest) hh
      (by rw [← ha]; simp [arrivals]) (fun i _ => hf _)
    have hc : ((Peer.new ⟨[], 0⟩ hash peerId).sendMessage net (newHandshake hash peerId)).conn = ⟨(net 0).arrive, 1⟩ := by
      simp [Peer.sendMessage, Peer.write, Peer.new, Conn.writeAll, Conn.advance]
    unfold readAndApply Peer.readMessage
    rw [hc, hr]
    have hn : Message.newRaw hs 68 19 = .ok ⟨19, 68, .handshake m⟩ := by
      unfold Message.newRaw Message.contentOf
      rw [if_neg (by decide), if_neg (by decide), if_neg (by decide), if_neg (by decide), if_pos rfl, hm]
      rfl
    simp only [hn]
    rfl
  unfold initPeer
  simp only []
  rw [show (Peer.new ⟨[], 0⟩ hash peerId).infoHash = hash from rfl, show (Peer.new ⟨[], 0⟩ hash peerId).id = peerId from rfl, e1]
  simp only []
  have hact : (({ (Peer.new ⟨[], 0⟩ hash peerId) with
        conn := ⟨rest ++ arrivals net 3 2, 5⟩
        log := [.sent (newHandshake hash peerId).asBytes] } : Peer).applyMessage ⟨19, 68, .handshake m⟩).active = true := by
    simp [Peer.applyMessage, Peer.applyState, Peer.applyContent, Peer.new, hmh]
  rw [hact]
  simp only [Bool.not_true, Bool.false_eq_true, if_false]
  generalize hp1 : ({ (Peer.new ⟨[], 0⟩ hash peerId) with
        conn := ⟨rest ++ arrivals net 3 2, 5⟩
        log := [.sent (newHandshake hash peerId).asBytes] } : Peer).applyMessage ⟨19, 68, .handshake m⟩ = p1
  have e2 : (p1.sendMessage net newInterested).sendMetadataHandshakeRequest net =
      (true, ((p1.sendMessage net newInterested).sendMetadataHandshakeRequest net).2) := by
    simp [Peer.sendMetadataHandshakeRequest, Peer.write, Conn.writeAll, hf]
  rw [e2]
  refine ⟨_, rfl, ?_, ?_, ?_⟩
  · show (p1.conn.advance net).advance net = _
    rw [← hp1, applyMessage_conn]
    simp [Conn.advance, arrivals]
  · rw [← hp1]; rfl
  · rw [← hp1]; rfl

theorem readyLoop_lethal {net : Net} {q : Peer} {body : Bytes} {id : UInt8} {len : Nat} {c : Conn} (h : readStream net q.conn = (some (body, id, len), c)) (hl : Lethal id body)
    (k : Nat) : (readyLoop net (k + 1) q).1 = .panic := by
  rw [readyLoop, readAndApply, Peer.readMessage, h]
  simp only [(C24_panics_exactly body len id).mpr hl]

/-- An attempt to use a peer ends if looking for its first messages does. -/
theorem attempts_panic {net : Net} {hash peerId : Bytes} (h : (initPeer net (Peer.new ⟨[], 0⟩ hash peerId)).1 = .panic) :
    (∀ m f, getInfo m (.connected net) f peerId hash = .panic) ∧
    ∀ sha m f info idx, info.computeInfoHash sha = hash → downloadPiece sha m (.connected net) f peerId info idx = .panic := by
  constructor
  · intro m f
    unfold getInfo getInfoRun
    cases hx : initPeer net (Peer.new ⟨[], 0⟩ hash peerId) with | mk r q => ?_
    rw [hx] at h
    cases h
    simp only [hx]
  · rintro sha m f info idx rfl
    unfold downloadPiece downloadRun
    cases hx : initPeer net (Peer.new ⟨[], 0⟩ (info.computeInfoHash sha) peerId) with | mk r q => ?_
    rw [hx] at h
    cases h
    simp only [hx]

/-- A peer that sends its handshake, and later what is given, in two segments. -/
def splitPeer (hs a b : Bytes) : Net := fun t =>
  if t = 0 then ⟨hs, .up⟩ else if t = 7 then ⟨a, .up⟩ else if t = 11 then ⟨b, .up⟩ else ⟨[], .up⟩

theorem isU32_small {n : Nat} {len : Bytes} (h : IsU32 n len) (hn : n < 256) : len = [0, 0, 0, UInt8.ofNat n] := by
  have := isU32_unique h (isU32_beU32 n (by omega))
  rw [this]
  have : n / 16777216 = 0 ∧ n / 65536 = 0 ∧ n / 256 = 0 := by omega
  simp [beU32, this, Nat.mod_eq_of_lt hn]

theorem lethal_empty {n : Nat} (h : n = 6 ∨ n = 7 ∨ n = 19 ∨ n = 20) : Lethal (UInt8.ofNat n) [] := by
  rcases h with rfl | rfl | rfl | rfl
  · exact .inl ⟨.inl rfl, by decide⟩
  · exact .inl ⟨.inr rfl, by decide⟩
  · exact .inr (.inl ⟨rfl, by decide⟩)
  · exact .inr (.inr ⟨rfl, .inl rfl⟩)

/-- C108 refuted: a message with 5, 6, 18 or 19 bytes (a bitfield for some 150 pieces, say) of which three bytes arrive before the others crashes every
attempt, whatever the message. -/
theorem C108_refuted_split {flags hash hisId hs : Bytes} (hh : IsHandshake flags hash hisId hs) {id : UInt8} {body frame : Bytes} (hfr : IsFrame id body frame)
    (hl : body.length = 5 ∨ body.length = 6 ∨ body.length = 18 ∨ body.length = 19) (peerId : Bytes) :
    (∀ m f, getInfo m (.connected (splitPeer hs (frame.take 3) (frame.drop 3))) f peerId hash = .panic) ∧
    ∀ sha m f info idx, info.computeInfoHash sha = hash →
      downloadPiece sha m (.connected (splitPeer hs (frame.take 3) (frame.drop 3))) f peerId info idx = .panic := by
  apply attempts_panic
  obtain ⟨len, h4, rfl⟩ := hfr
  have hlen := isU32_small h4 (by omega)
  subst hlen
  have e3 : List.take 3 ([0, 0, 0, UInt8.ofNat (body.length + 1)] ++ id :: body) = [0, 0, 0] := rfl
  have e4 : List.drop 3 ([0, 0, 0, UInt8.ofNat (body.length + 1)] ++ id :: body) = UInt8.ofNat (body.length + 1) :: id :: body := rfl
  rw [e3, e4]
  generalize hnet : splitPeer hs [0, 0, 0] (UInt8.ofNat (body.length + 1) :: id :: body) = net
  have hf : ∀ t, (net t).kind = .up := by
    intro t
    rw [← hnet, splitPeer]
    repeat' split
    all_goals rfl
  have hk : ∀ t, (net t).kind ≠ .fail := fun t => by rw [hf]; simp
  obtain ⟨q, h1, h2, -⟩ := initPeer_greeted (net := net) (rest := []) hh (by rw [← hnet]; simp [arrivals, splitPeer]) hk peerId
  rw [h1]
  have h5 : arrivals net 3 4 = [] := by rw [← hnet]; rfl
  rw [h5] at h2
  have a7 : (net 7).arrive = [0, 0, 0] := by rw [← hnet]; rfl
  have a8 : (net 8).arrive = [] := by rw [← hnet]; rfl
  have a9 : (net 9).arrive = [] := by rw [← hnet]; rfl
  have a10 : (net 10).arrive = [] := by rw [← hnet]; rfl
  have a11 : (net 11).arrive = UInt8.ofNat (body.length + 1) :: id :: body := by rw [← hnet]; rfl
  refine readyLoop_lethal (body := []) (id := UInt8.ofNat (body.length + 1)) (len := 0) (c := ⟨id :: body, 12⟩) ?_ (lethal_empty (by omega)) 9
  rw [h2]
  simp [readStream, Conn.setReadTimeout, hasMessages, Conn.peek, Conn.read, Conn.advance, hf, a7, a8, a9, a10, a11, readFramed, padTo, ofBe]

/-- Non-vacuity: such a bitfield, which follows the protocol. -/
example : IsFrame 5 (List.replicate 19 255) ([0, 0, 0, 20] ++ 5 :: List.replicate 19 255) ∧ Proper 5 (List.replicate 19 255) :=
  ⟨⟨[0, 0, 0, 20], ⟨rfl, rfl⟩, rfl⟩, by simp [Proper]⟩

/-- Read as it is here, a keep-alive and a zero are a choke. -/
theorem readyLoop_zeros {net : Net} (hf : ∀ t, (net t).kind ≠ .fail) {q : Peer} {rest : Bytes} (hb : q.conn.buf = [0, 0, 0, 0] ++ 0 :: rest) (k : Nat) :
    ∃ q', readyLoop net (k + 1) q = readyLoop net k q' ∧ q'.conn = ⟨rest ++ arrivals net q.conn.t 5, q.conn.t + 5⟩ := by
  refine ⟨({ q with conn := ⟨rest ++ arrivals net q.conn.t 5, q.conn.t + 5⟩ } : Peer).applyMessage ⟨0, 0, .nothing⟩, ?_, applyMessage_conn ..⟩
  rw [readyLoop, readAndApply, Peer.readMessage, C29_refuted_swallows net q.conn 0 rest hb (fun i _ => hf _)]
  simp only [show Message.newRaw [] 0 0 = .ok ⟨0, 0, .nothing⟩ from rfl]
  rw [if_neg (by simp [Peer.isReady, Peer.applyMessage, Peer.applyState])]

/-- C108 refuted: four keep-alives before such a message crash every attempt, though all arrive whole. -/
theorem C108_refuted_keepalive {flags hash hisId hs : Bytes} (hh : IsHandshake flags hash hisId hs) {id : UInt8} {body frame : Bytes} (hfr : IsFrame id body frame)
    (hl : body.length = 5 ∨ body.length = 6 ∨ body.length = 18 ∨ body.length = 19) (rest peerId : Bytes) :
    (∀ m f, getInfo m (.connected (splitPeer (hs ++ (List.replicate 16 0 ++ (frame ++ rest))) [] [])) f peerId hash = .panic) ∧
    ∀ sha m f info idx, info.computeInfoHash sha = hash →
      downloadPiece sha m (.connected (splitPeer (hs ++ (List.replicate 16 0 ++ (frame ++ rest))) [] [])) f peerId info idx = .panic := by
  apply attempts_panic
  obtain ⟨len, h4, rfl⟩ := hfr
  have hlen := isU32_small h4 (by omega)
  subst hlen
  have hr : List.replicate 16 (0 : UInt8) = [0, 0, 0, 0] ++ 0 :: ([0, 0, 0, 0] ++ 0 :: ([0, 0, 0, 0] ++ [0, 0])) := rfl
  generalize hnet : splitPeer (hs ++ (List.replicate 16 0 ++ (([0, 0, 0, UInt8.ofNat (body.length + 1)] ++ id :: body) ++ rest))) [] [] = net
  have hq : ∀ t, 0 < t → net t = ⟨[], .up⟩ := by
    intro t ht
    rw [← hnet, splitPeer, if_neg (by omega)]
    repeat' split
    all_goals rfl
  have hk : ∀ t, (net t).kind ≠ .fail := by
    intro t
    rcases Nat.eq_zero_or_pos t with rfl | ht
    · rw [← hnet]; simp [splitPeer]
    · rw [hq t ht]; simp
  have ha : ∀ t k, 0 < t → arrivals net t k = [] := fun t k ht => arrivals_none (fun i hi => by rw [hq i (by omega)]) k
  have ha0 : arrivals net 0 3 = hs ++ (List.replicate 16 0 ++ (([0, 0, 0, UInt8.ofNat (body.length + 1)] ++ id :: body) ++ rest)) := by
    rw [show arrivals net 0 3 = (net 0).arrive ++ arrivals net 1 2 from rfl, ha 1 2 (by omega), ← hnet]
    simp [splitPeer]
  obtain ⟨q, h1, h2, -⟩ := initPeer_greeted hh ha0 hk peerId
  rw [h1]
  rw [ha 3 4 (by omega), List.append_nil] at h2
  obtain ⟨q1, i1, j1⟩ := readyLoop_zeros hk (q := q) (rest := [0, 0, 0, 0] ++ 0 :: ([0, 0, 0, 0] ++ 0 :: (0 :: [0, 0, 0, UInt8.ofNat (body.length + 1)] ++ id :: body ++ rest)))
    (by rw [h2, hr]; simp) 9
  rw [h2] at j1
  rw [ha _ 5 (by simp only []; omega), List.append_nil] at j1
  obtain ⟨q2, i2, j2⟩ := readyLoop_zeros hk (q := q1) (rest := [0, 0, 0, 0] ++ 0 :: (0 :: [0, 0, 0, UInt8.ofNat (body.length + 1)] ++ id :: body ++ rest))
    (by rw [j1]) 8
  rw [j1] at j2
  rw [ha _ 5 (by simp only []; omega), List.append_nil] at j2
  obtain ⟨q3, i3, j3⟩ := readyLoop_zeros hk (q := q2) (rest := 0 :: [0, 0, 0, UInt8.ofNat (body.length + 1)] ++ id :: body ++ rest)
    (by rw [j2]) 7
  rw [j2] at j3
  rw [ha _ 5 (by simp only []; omega), List.append_nil] at j3
  rw [i1, i2, i3]
  refine readyLoop_lethal (C29_refuted_swallows net q3.conn (UInt8.ofNat (body.length + 1)) (id :: body ++ rest) (by rw [j3]; simp) (fun i _ => hk _)) (lethal_empty (by omega)) 6

/-- A message of a peer that knows the size of the metadata, but does not offer to send it. -/
def sizeOnly : Bytes := 0 :: b!"d13:metadata_sizei5ee"

/-- C108 refuted: the whole, proper messages of such a peer crash every attempt to get the metadata. -/
theorem C108_refuted_metadata {flags hash hisId hs : Bytes} (hh : IsHandshake flags hash hisId hs) (m : Build) (f : Nat) (peerId : Bytes) :
    Proper 20 sizeOnly ∧ getInfo m (.connected (splitPeer (hs ++ (wire (20, sizeOnly) ++ wire (1, []))) [] [])) (f + 1) peerId hash = .panic := by
  constructor
  · refine ⟨by decide, by decide, fun _ => ⟨0, .dict [(b!"metadata_size", .int 5)], b!"d13:metadata_sizei5ee", [], ?_, rfl⟩⟩
    have h1 : IsStr b!"metadata_size" b!"13:metadata_size" := ⟨b!"13", ⟨by simp, by decide, rfl, by decide⟩, rfl⟩
    have h2 : IsBencode (.int 5) b!"i5e" := .int (.nonneg (n := 5) (ds := b!"5") ⟨by simp, by decide, rfl, by decide⟩)
    exact .dict (.cons h1 h2 .nil)
  generalize hnet : splitPeer (hs ++ (wire (20, sizeOnly) ++ wire (1, []))) [] [] = net
  have hq : ∀ t, 0 < t → net t = ⟨[], .up⟩ := by
    intro t ht
    rw [← hnet, splitPeer, if_neg (by omega)]
    repeat' split
    all_goals rfl
  have hk : ∀ t, (net t).kind ≠ .fail := by
    intro t
    rcases Nat.eq_zero_or_pos t with rfl | ht
    · rw [← hnet]; simp [splitPeer]
    · rw [hq t ht]; simp
  have ha : ∀ t k, 0 < t → arrivals net t k = [] := fun t k ht => arrivals_none (fun i hi => by rw [hq i (by omega)]) k
  have ha0 : arrivals net 0 3 = hs ++ (wire (20, sizeOnly) ++ wire (1, [])) := by
    rw [show arrivals net 0 3 = (net 0).arrive ++ arrivals net 1 2 from rfl, ha 1 2 (by omega), ← hnet]
    simp [splitPeer]
  obtain ⟨q, h1, h2, h3, h4⟩ := initPeer_greeted hh ha0 hk peerId
  rw [ha 3 4 (by omega), List.append_nil] at h2
  have r1 : readStream net q.conn = (some (sizeOnly, 20, sizeOnly.length), ⟨wire (1, []), 14⟩) := by
    rw [readStream_frame (frame := wire (20, sizeOnly)) (rest := wire (1, [])) (id := 20) (body := sizeOnly) ⟨[0, 0, 0, 23], ⟨rfl, rfl⟩, rfl⟩ (by decide) (by rw [h2])
      (fun i _ => hk _), h2, ha _ 7 (by simp only []; omega), List.append_nil]
  have n1 : Message.newRaw sizeOnly sizeOnly.length 20 = .ok ⟨20, 22, .extension ⟨0, none, some 5, [], none, []⟩⟩ := by decide +kernel
  have r2 : readStream net ⟨wire (1, []), 14⟩ = (some ([], 1, 0), ⟨[], 21⟩) := by
    rw [readStream_frame (frame := wire (1, [])) (rest := []) (id := 1) (body := []) ⟨[0, 0, 0, 1], ⟨rfl, rfl⟩, rfl⟩ (by decide) (by simp)
      (fun i _ => hk _), ha _ 7 (by simp only []; omega)]
    rfl
  have n2 : Message.newRaw [] 0 1 = .ok ⟨1, 0, .nothing⟩ := rfl
  generalize hq1 : ({ q with conn := ⟨wire (1, []), 14⟩ } : Peer).applyMessage ⟨20, 22, .extension ⟨0, none, some 5, [], none, []⟩⟩ = q1
  generalize hq2 : ({ q1 with conn := ⟨[], 21⟩ } : Peer).applyMessage ⟨1, 0, .nothing⟩ = q2
  have c1 : q1.conn = ⟨wire (1, []), 14⟩ := by rw [← hq1, applyMessage_conn]
  have c2 : q2.conn = ⟨[], 21⟩ := by rw [← hq2, applyMessage_conn]
  have d1 : q1.choked = true := by rw [← hq1]; exact h3
  have d2 : q2.choked = false := by rw [← hq2]; rfl
  have s2 : q2.metadataSize = 5 := by rw [← hq2, ← hq1]; rfl
  have x2 : q2.extensions = [] := by rw [← hq2, ← hq1]; rfl
  have hinit : initPeer net (Peer.new ⟨[], 0⟩ hash peerId) = (.ok (), q2) := by
    rw [h1, readyLoop, readAndApply, Peer.readMessage, r1]
    simp only [n1, hq1]
    rw [if_neg (by simp [Peer.isReady, d1]), readyLoop, readAndApply, Peer.readMessage, c1, r2]
    simp only [n2, hq2]
    rw [if_pos (by simp [Peer.isReady, d2, s2])]
  have hcap : (Downloadable.info.capacity m q2 : Res DownloadableError Nat) = .ok 1 := by
    simp only [Downloadable.capacity, s2]
    rfl
  have hrs : readStream net q2.conn = (none, ⟨[], 23⟩) := by
    rw [c2, readStream_nothing (by rw [ha _ 2 (by simp only []; omega)]; rfl) (fun i _ => hk _)]
  unfold getInfo getInfoRun
  simp only [hinit, Downloadable.download, hcap, execute, execRun, execStep, Peer.readMessage, hrs, execTail]
  simp [MessageBuffer.isFull, d2, MessageBuffer.requestNextMessage, MessageBuffer.isLenAsExpected, Downloadable.request, x2, mapGet]

/-! ### Non-vacuity -/

/-- Non-vacuity of `C108_whole_partial` and `C108_info_partial`: a peer that sends all its messages at once; and the lethal message of a peer as in
`C108_causes`. -/
example : SendsWhole (fun id body => Proper id body ∧ OffersMetadata id body)
      (splitPeer ((newHandshake (List.replicate 20 1) (List.replicate 20 2)).asBytes ++ wire (5, [255])) (wire (1, [])) (wire (7, List.replicate 12 0))) ∧
    HasPiece ⟨none, some 4, b!"a", 16384, List.replicate 20 0⟩ 0 4 ∧ Lethal 7 [] ∧ MayRead (script [[0, 0, 0, 1, 7]]) 7 [] := by
  have w : ∀ id body rest, IsFrame id body (wire (id, body)) → (wire (id, body)).head? ≠ some 19 → Proper id body → id ≠ 20 →
      Whole (fun id body => Proper id body ∧ OffersMetadata id body) rest → Whole (fun id body => Proper id body ∧ OffersMetadata id body) (wire (id, body) ++ rest) :=
    fun id body rest h1 h2 h3 h4 h5 => .frame h1 h2 ⟨h3, fun e => absurd e h4⟩ h5
  refine ⟨fun t => ⟨?_, ?_⟩, ⟨rfl, by decide, by decide, by decide, by decide, by decide⟩, .inl ⟨.inr rfl, by decide⟩, ⟨⟨[0, 0, 0, 1, 7], 1⟩, 0, ?_, ?_⟩⟩
  · unfold splitPeer
    split
    · refine .handshake (by decide +kernel) (by decide +kernel) ⟨⟨by decide, fun _ => by decide +kernel, fun e => absurd e (by decide)⟩, fun e => absurd e (by decide)⟩ ?_
      have := w 5 [255] [] ⟨_, ⟨rfl, rfl⟩, rfl⟩ (by decide) (by simp [Proper]) (by decide) .nil
      simpa using this
    · split
      · have := w 1 [] [] ⟨_, ⟨rfl, rfl⟩, rfl⟩ (by decide) (by simp [Proper]) (by decide) .nil
        simpa using this
      · split
        · have := w 7 (List.replicate 12 0) [] ⟨_, ⟨rfl, rfl⟩, rfl⟩ (by decide) (by simp [Proper]) (by decide) .nil
          simpa using this
        · exact .nil
  · unfold splitPeer
    repeat' split
    all_goals simp
  · exact ⟨[], rfl⟩
  · decide +kernel

end RustBit
