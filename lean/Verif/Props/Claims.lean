/-
Property C115: what peers say they have.
-/
import Verif.Spec.Claims
import Verif.Props.Crash

namespace RustBit
open Spec

theorem _root_.Spec.Alike.read {net net' : Net} {c c' : Conn} (h : Alike net c net' c') : SameRead (readStream net c).1 (readStream net' c').1 ∧
    Alike net (readStream net c).2 net' (readStream net' c').2 := ⟨(h 1).1, fun n => (h (n + 1)).2.1⟩

theorem _root_.Spec.Alike.write {net net' : Net} {c c' : Conn} (h : Alike net c net' c') : (c.writeAll net).1 = (c'.writeAll net').1 ∧
    Alike net (c.writeAll net).2 net' (c'.writeAll net').2 := ⟨(h 1).2.2.1, fun n => (h (n + 1)).2.2.2⟩

/-- Two peers that differ at most in what they say they have. -/
structure Like (net : Net) (p : Peer) (net' : Net) (q : Peer) : Prop where
  id : p.id = q.id
  choked : p.choked = q.choked
  active : p.active = q.active
  size : p.metadataSize = q.metadataSize
  extensions : p.extensions = q.extensions
  infoHash : p.infoHash = q.infoHash
  written : written p.log = written q.log
  conn : Alike net p.conn net' q.conn

/-- The same message, or messages about what the peer has. -/
def SameMsg (m k : Message) : Prop :=
  m = k ∨ (m.id = k.id ∧ (m.id = 4 ∧ m.content = .nothing ∧ k.content = .nothing ∨ m.id = 5 ∧ ∃ b c, m.content = .bitfield b ∧ k.content = .bitfield c))

/-- What two reads give. -/
inductive SameRes {ε : Type} : Res ε (Option Message) → Res ε (Option Message) → Prop
  | none : SameRes (.ok none) (.ok none)
  | some (m k : Message) (h : SameMsg m k) : SameRes (.ok (some m)) (.ok (some k))
  | panic : SameRes .panic .panic
  | hang : SameRes .hang .hang

theorem like_conn {net net' : Net} {p q : Peer} {c c' : Conn} (h : Like net p net' q) (hc : Alike net c net' c') :
    Like net { p with conn := c } net' { q with conn := c' } :=
  ⟨h.id, h.choked, h.active, h.size, h.extensions, h.infoHash, h.written, hc⟩

theorem like_read {ε : Type} {net net' : Net} {p q : Peer} (h : Like net p net' q) :
    SameRes (p.readMessage net : Res ε (Option Message) × Peer).1 (q.readMessage net' : Res ε (Option Message) × Peer).1 ∧
    Like net (p.readMessage net : Res ε (Option Message) × Peer).2 net' (q.readMessage net' : Res ε (Option Message) × Peer).2 := by
  obtain ⟨h1, h2⟩ := h.conn.read
  unfold Peer.readMessage
  generalize readStream net p.conn = a at h1 h2
  generalize readStream net' q.conn = b at h1 h2
  obtain ⟨a1, a2⟩ := a
  obtain ⟨b1, b2⟩ := b
  simp only at h1 h2
  have hl := like_conn h h2
  rcases h1 with rfl | ⟨x, y, id, n, k, rfl, rfl, hid⟩
  · cases a1 with
    | none => exact ⟨.none, hl⟩
    | some r =>
      obtain ⟨body, id, len⟩ := r
      simp only []
      cases Message.newRaw body len id with
      | ok m => exact ⟨.some m m (.inl rfl), hl⟩
      | err e => exact ⟨.none, hl⟩
      | panic => exact ⟨.panic, hl⟩
      | hang => exact ⟨.hang, hl⟩
  · rcases hid with rfl | rfl
    · exact ⟨.some ⟨4, n, .nothing⟩ ⟨4, k, .nothing⟩ (.inr ⟨rfl, .inl ⟨rfl, rfl, rfl⟩⟩), hl⟩
    · exact ⟨.some ⟨5, n, .bitfield x⟩ ⟨5, k, .bitfield y⟩ (.inr ⟨rfl, .inr ⟨rfl, x, y, rfl, rfl⟩⟩), hl⟩

theorem like_apply {net net' : Net} {p q : Peer} {m k : Message} (h : Like net p net' q) (hm : SameMsg m k) :
    Like net (p.applyMessage m) net' (q.applyMessage k) := by
  have hw : ∀ (l : List Ev) (x : Message), written (l ++ [.got x]) = written l := by intro l x; simp [written]
  rcases hm with rfl | ⟨h1, h2 | ⟨h2, b, c, h3, h4⟩⟩
  · have hc : Like net (p.applyContent m) net' (q.applyContent m) := by
      unfold Peer.applyContent
      cases m.content with
      | extension e =>
        simp only []
        split
        · exact ⟨h.id, h.choked, h.active, rfl, rfl, h.infoHash, h.written, h.conn⟩
        · exact h
      | bitfield b => exact ⟨h.id, h.choked, h.active, h.size, h.extensions, h.infoHash, h.written, h.conn⟩
      | handshake x => exact ⟨h.id, h.choked, by simp only [h.infoHash], h.size, h.extensions, h.infoHash, h.written, h.conn⟩
      | request r => exact h
      | interested => exact h
      | nothing => exact h
    have hs : Like net (p.applyState m) net' (q.applyState m) := by
      unfold Peer.applyState
      split
      · exact ⟨h.id, rfl, h.active, h.size, h.extensions, h.infoHash, h.written, h.conn⟩
      · split
        · exact ⟨h.id, rfl, h.active, h.size, h.extensions, h.infoHash, h.written, h.conn⟩
        · split
          · exact hc
          · exact h
    exact ⟨hs.id, hs.choked, hs.active, hs.size, hs.extensions, hs.infoHash, by simp only [Peer.applyMessage, hw]; exact h.written, hs.conn⟩
  · have e1 : p.applyMessage m = { p with log := p.log ++ [.got m] } := by simp [Peer.applyMessage, Peer.applyState, h2.1]
    have e2 : q.applyMessage k = { q with log := q.log ++ [.got k] } := by simp [Peer.applyMessage, Peer.applyState, ← h1, h2.1]
    rw [e1, e2]
    exact ⟨h.id, h.choked, h.active, h.size, h.extensions, h.infoHash, by simp only [hw]; exact h.written, h.conn⟩
  · have e1 : p.applyMessage m = { p with bitfield := bitVector b, log := p.log ++ [.got m] } := by
      simp [Peer.applyMessage, Peer.applyState, Peer.applyContent, h2, h3]
    have e2 : q.applyMessage k = { q with bitfield := bitVector c, log := q.log ++ [.got k] } := by
      simp [Peer.applyMessage, Peer.applyState, Peer.applyContent, ← h1, h2, h4]
    rw [e1, e2]
    exact ⟨h.id, h.choked, h.active, h.size, h.extensions, h.infoHash, by simp only [hw]; exact h.written, h.conn⟩

theorem like_write {net net' : Net} {p q : Peer} (h : Like net p net' q) (x : Bytes) :
    (p.write net x).1 = (q.write net' x).1 ∧ Like net (p.write net x).2 net' (q.write net' x).2 := by
  obtain ⟨h1, h2⟩ := h.conn.write
  unfold Peer.write
  generalize p.conn.writeAll net = a at h1 h2
  generalize q.conn.writeAll net' = b at h1 h2
  obtain ⟨a1, a2⟩ := a
  obtain ⟨b1, b2⟩ := b
  simp only at h1 h2
  refine ⟨h1, h.id, h.choked, h.active, h.size, h.extensions, h.infoHash, ?_, h2⟩
  have hw : ∀ (l : List Ev), written (l ++ [.sent x]) = written l ++ [x] := by intro l; simp [written]
  simp only [hw, h.written]

theorem sameMsg_push {d : Downloadable} {m k : Message} (h : SameMsg m k) (b : MessageBuffer) : b.pushMessage d m = b.pushMessage d k := by
  rcases h with rfl | ⟨h1, h2 | ⟨h2, x, y, h3, h4⟩⟩
  · rfl
  · have f : ∀ z : Message, z.content = .nothing → d.messageFilter z = false := by
      intro z hz; cases d <;> simp [Downloadable.messageFilter, Message.isRequest, Message.isExtensionData, hz]
    simp [MessageBuffer.pushMessage, f m h2.2.1, f k h2.2.2]
  · have f : ∀ (z : Message) (u : Bytes), z.content = .bitfield u → d.messageFilter z = false := by
      intro z u hz; cases d <;> simp [Downloadable.messageFilter, Message.isRequest, Message.isExtensionData, hz]
    simp [MessageBuffer.pushMessage, f m x h3, f k y h4]

/-- Two iterations end alike. -/
inductive LikeFlow (net net' : Net) : Flow → Flow → Prop
  | again (s t : DState) (h : Like net s.peer net' t.peer) (hb : s.buf = t.buf) (hi : s.idle = t.idle) : LikeFlow net net' (.again s) (.again t)
  | done (r : Res DownloadableError Bytes) (p q : Peer) (h : Like net p net' q) : LikeFlow net net' (.done r p) (.done r q)

theorem like_tail (m : Build) (d : Downloadable) {net net' : Net} {s t : DState} (h : Like net s.peer net' t.peer) (hb : s.buf = t.buf) (hi : s.idle = t.idle) :
    LikeFlow net net' (execTail m net d s) (execTail m net' d t) := by
  obtain ⟨p, b, i⟩ := s
  obtain ⟨q, b', i'⟩ := t
  simp only at h hb hi
  subst hb hi
  unfold execTail
  simp only [← h.choked]
  split
  · exact .done _ _ _ h
  · split
    · exact .done _ _ _ h
    · unfold MessageBuffer.requestNextMessage
      have hreq : (d.request m p b.buffer.length : Res DownloadableError Message) = d.request m q b.buffer.length := by
        cases d <;> simp [Downloadable.request, h.extensions]
      rw [← hreq]
      by_cases hfull : (b.isLenAsExpected || b.isFull) = true
      · simp only [hfull, if_true]
        split
        · exact .done _ _ _ h
        · exact .again _ _ h rfl rfl
      · simp only [hfull, Bool.false_eq_true, if_false]
        cases (d.request m p b.buffer.length : Res DownloadableError Message) with
        | ok msg =>
          simp only []
          have : Like net (p.sendMessage net msg) net' (q.sendMessage net' msg) := (like_write h msg.asBytes).2
          split
          · exact .done _ _ _ this
          · exact .again _ _ this rfl rfl
        | err e => exact .done _ _ _ h
        | panic => exact .done _ _ _ h
        | hang => exact .done _ _ _ h

theorem like_step (m : Build) (d : Downloadable) {net net' : Net} {s t : DState} (h : Like net s.peer net' t.peer) (hb : s.buf = t.buf) (hi : s.idle = t.idle) :
    LikeFlow net net' (execStep m net d s) (execStep m net' d t) := by
  obtain ⟨h1, h2⟩ := like_read (ε := DownloadableError) h
  unfold execStep
  generalize (s.peer.readMessage net : Res DownloadableError (Option Message) × Peer) = a at h1 h2
  generalize (t.peer.readMessage net' : Res DownloadableError (Option Message) × Peer) = b at h1 h2
  obtain ⟨a1, a2⟩ := a
  obtain ⟨b1, b2⟩ := b
  simp only at h1 h2
  cases h1 with
  | none => exact like_tail m d h2 hb hi
  | some x y hxy => exact like_tail m d (like_apply h2 hxy) (by simp only [hb]; exact sameMsg_push hxy _) rfl
  | panic => exact .done _ _ _ h2
  | hang => exact .done _ _ _ h2

theorem like_run (m : Build) (d : Downloadable) {net net' : Net} : ∀ (f : Nat) {s t : DState}, Like net s.peer net' t.peer → s.buf = t.buf → s.idle = t.idle →
    LikeFlow net net' (execRun m net d f s) (execRun m net' d f t) := by
  intro f
  induction f with
  | zero => intro s t h hb hi; exact .again _ _ h hb hi
  | succ f ih =>
    intro s t h hb hi
    have := like_step m d h hb hi
    rw [execRun, execRun]
    generalize execStep m net d s = x at this
    generalize execStep m net' d t = y at this
    cases this with
    | again s t h hb hi => exact ih h hb hi
    | done r p q h => exact .done r p q h

theorem like_download (m : Build) (d : Downloadable) {net net' : Net} (f : Nat) {p q : Peer} (h : Like net p net' q) :
    (d.download m net f p).1 = (d.download m net' f q).1 ∧ Like net (d.download m net f p).2 net' (d.download m net' f q).2 := by
  unfold Downloadable.download
  have hc : (d.capacity m p : Res DownloadableError Nat) = d.capacity m q := by cases d <;> simp [Downloadable.capacity, h.size]
  rw [← hc]
  cases (d.capacity m p : Res DownloadableError Nat) with
  | ok cap =>
    simp only [execute]
    have := like_run m d (net := net) (net' := net') f (s := ⟨p, ⟨[], cap, 0⟩, 0⟩) (t := ⟨q, ⟨[], cap, 0⟩, 0⟩) h rfl rfl
    generalize execRun m net d f ⟨p, ⟨[], cap, 0⟩, 0⟩ = a at this
    generalize execRun m net' d f ⟨q, ⟨[], cap, 0⟩, 0⟩ = b at this
    cases this with
    | again s t h hb hi => exact ⟨rfl, h⟩
    | done r p q h => exact ⟨rfl, h⟩
  | err e => exact ⟨rfl, h⟩
  | panic => exact ⟨rfl, h⟩
  | hang => exact ⟨rfl, h⟩

theorem like_readAndApply {net net' : Net} {p q : Peer} (h : Like net p net' q) :
    (readAndApply net p).1 = (readAndApply net' q).1 ∧ Like net (readAndApply net p).2 net' (readAndApply net' q).2 := by
  obtain ⟨h1, h2⟩ := like_read (ε := PeerManagerError) h
  unfold readAndApply
  generalize (p.readMessage net : Res PeerManagerError (Option Message) × Peer) = a at h1 h2
  generalize (q.readMessage net' : Res PeerManagerError (Option Message) × Peer) = b at h1 h2
  obtain ⟨a1, a2⟩ := a
  obtain ⟨b1, b2⟩ := b
  simp only at h1 h2
  cases h1 with
  | none => exact ⟨rfl, h2⟩
  | some x y hxy => exact ⟨rfl, like_apply h2 hxy⟩
  | panic => exact ⟨rfl, h2⟩
  | hang => exact ⟨rfl, h2⟩

theorem like_ready {net net' : Net} : ∀ (k : Nat) {p q : Peer}, Like net p net' q →
    (readyLoop net k p).1 = (readyLoop net' k q).1 ∧ Like net (readyLoop net k p).2 net' (readyLoop net' k q).2 := by
  intro k
  induction k with
  | zero => intro p q h; exact ⟨rfl, h⟩
  | succ k ih =>
    intro p q h
    obtain ⟨h1, h2⟩ := like_readAndApply h
    rw [readyLoop, readyLoop]
    generalize readAndApply net p = a at h1 h2
    generalize readAndApply net' q = b at h1 h2
    obtain ⟨a1, a2⟩ := a
    obtain ⟨b1, b2⟩ := b
    simp only at h1 h2
    subst h1
    cases a1 with
    | ok u =>
      simp only []
      have : a2.isReady = b2.isReady := by simp [Peer.isReady, h2.size, h2.choked]
      rw [this]
      split
      · exact ⟨rfl, h2⟩
      · exact ih h2
    | err e => exact ⟨rfl, h2⟩
    | panic => exact ⟨rfl, h2⟩
    | hang => exact ⟨rfl, h2⟩

theorem like_init {net net' : Net} {p q : Peer} (h : Like net p net' q) :
    (initPeer net p).1 = (initPeer net' q).1 ∧ Like net (initPeer net p).2 net' (initPeer net' q).2 := by
  unfold initPeer
  have h0 : Like net (p.sendMessage net (newHandshake p.infoHash p.id)) net' (q.sendMessage net' (newHandshake q.infoHash q.id)) := by
    rw [h.infoHash, h.id]
    exact (like_write h _).2
  obtain ⟨h1, h2⟩ := like_readAndApply h0
  simp only []
  generalize readAndApply net (p.sendMessage net (newHandshake p.infoHash p.id)) = a at h1 h2
  generalize readAndApply net' (q.sendMessage net' (newHandshake q.infoHash q.id)) = b at h1 h2
  obtain ⟨a1, a2⟩ := a
  obtain ⟨b1, b2⟩ := b
  simp only at h1 h2
  subst h1
  cases a1 with
  | ok u =>
    simp only [← h2.active]
    split
    · exact ⟨rfl, h2⟩
    · have h3 : Like net (a2.sendMessage net newInterested) net' (b2.sendMessage net' newInterested) := (like_write h2 _).2
      obtain ⟨h4, h5⟩ := like_write h3 extensionHandshakeBytes
      unfold Peer.sendMetadataHandshakeRequest
      generalize (a2.sendMessage net newInterested).write net extensionHandshakeBytes = x at h4 h5
      generalize (b2.sendMessage net' newInterested).write net' extensionHandshakeBytes = y at h4 h5
      obtain ⟨x1, x2⟩ := x
      obtain ⟨y1, y2⟩ := y
      simp only at h4 h5
      subst h4
      cases x1 with
      | false => exact ⟨rfl, h5⟩
      | true => exact like_ready 10 h5
  | err e => exact ⟨rfl, h2⟩
  | panic => exact ⟨rfl, h2⟩
  | hang => exact ⟨rfl, h2⟩

/-- C115: what a peer says it has makes no difference: if two connections cannot be told apart but for the bitfields and `have` messages, the same is
written to both, whatever piece is asked for, and the outcome is the same; and so for metadata. -/
theorem C115_ignored (sha : Bytes → Bytes) (m : Build) (net net' : Net) (f : Nat) (peerId hash : Bytes) (info : Info) (idx : Nat)
    (h : Alike net ⟨[], 0⟩ net' ⟨[], 0⟩) :
    (downloadRun sha m net f peerId info idx).1 = (downloadRun sha m net' f peerId info idx).1 ∧
    written (downloadRun sha m net f peerId info idx).2.log = written (downloadRun sha m net' f peerId info idx).2.log ∧
    (getInfoRun m net f peerId hash).1 = (getInfoRun m net' f peerId hash).1 ∧
    written (getInfoRun m net f peerId hash).2.log = written (getInfoRun m net' f peerId hash).2.log := by
  have start : ∀ h, Like net (Peer.new ⟨[], 0⟩ h peerId) net' (Peer.new ⟨[], 0⟩ h peerId) := fun _ => ⟨rfl, rfl, rfl, rfl, rfl, rfl, rfl, by assumption⟩
  have hd : (downloadRun sha m net f peerId info idx).1 = (downloadRun sha m net' f peerId info idx).1 ∧
      Like net (downloadRun sha m net f peerId info idx).2 net' (downloadRun sha m net' f peerId info idx).2 := by
    obtain ⟨h1, h2⟩ := like_init (start (info.computeInfoHash sha))
    unfold downloadRun
    generalize initPeer net (Peer.new ⟨[], 0⟩ (info.computeInfoHash sha) peerId) = a at h1 h2
    generalize initPeer net' (Peer.new ⟨[], 0⟩ (info.computeInfoHash sha) peerId) = b at h1 h2
    obtain ⟨a1, a2⟩ := a
    obtain ⟨b1, b2⟩ := b
    simp only at h1 h2
    subst h1
    cases a1 with
    | ok u =>
      simp only []
      cases (info.getTotalLength m : Res PeerManagerError Nat) with
      | ok total =>
        simp only []
        obtain ⟨h3, h4⟩ := like_download m (.block info.pieceLength idx total) f h2
        generalize (Downloadable.block info.pieceLength idx total).download m net f a2 = x at h3 h4
        generalize (Downloadable.block info.pieceLength idx total).download m net' f b2 = y at h3 h4
        obtain ⟨x1, x2⟩ := x
        obtain ⟨y1, y2⟩ := y
        simp only at h3 h4
        subst h3
        cases x1 <;> exact ⟨rfl, h4⟩
      | err e => exact ⟨rfl, h2⟩
      | panic => exact ⟨rfl, h2⟩
      | hang => exact ⟨rfl, h2⟩
    | err e => exact ⟨rfl, h2⟩
    | panic => exact ⟨rfl, h2⟩
    | hang => exact ⟨rfl, h2⟩
  have hi : (getInfoRun m net f peerId hash).1 = (getInfoRun m net' f peerId hash).1 ∧
      Like net (getInfoRun m net f peerId hash).2 net' (getInfoRun m net' f peerId hash).2 := by
    obtain ⟨h1, h2⟩ := like_init (start hash)
    unfold getInfoRun
    generalize initPeer net (Peer.new ⟨[], 0⟩ hash peerId) = a at h1 h2
    generalize initPeer net' (Peer.new ⟨[], 0⟩ hash peerId) = b at h1 h2
    obtain ⟨a1, a2⟩ := a
    obtain ⟨b1, b2⟩ := b
    simp only at h1 h2
    subst h1
    cases a1 with
    | ok u =>
      simp only []
      obtain ⟨h3, h4⟩ := like_download m .info f h2
      generalize Downloadable.info.download m net f a2 = x at h3 h4
      generalize Downloadable.info.download m net' f b2 = y at h3 h4
      obtain ⟨x1, x2⟩ := x
      obtain ⟨y1, y2⟩ := y
      simp only at h3 h4
      subst h3
      cases x1 <;> exact ⟨rfl, h4⟩
    | err e => exact ⟨rfl, h2⟩
    | panic => exact ⟨rfl, h2⟩
    | hang => exact ⟨rfl, h2⟩
  exact ⟨hd.1, hd.2.written, hi.1, hi.2.written⟩

/-! ### On the wire -/

theorem _root_.Spec.SaySame.append {a b c d : Bytes} (h : SaySame a b) (k : SaySame c d) : SaySame (a ++ c) (b ++ d) := by
  induction h with
  | nil => exact k
  | handshake h1 h2 _ ih => rw [List.append_assoc, List.append_assoc]; exact .handshake h1 h2 ih
  | frame h1 h2 _ ih => rw [List.append_assoc, List.append_assoc]; exact .frame h1 h2 ih
  | says h1 h2 h3 h4 h5 _ ih => rw [List.append_assoc, List.append_assoc]; exact .says h1 h2 h3 h4 h5 ih

theorem saySame_arrivals {net net' : Net} (h : ∀ t, SaySame (net t).arrive (net' t).arrive) (k : Nat) :
    ∀ t, SaySame (arrivals net t k) (arrivals net' t k) := by
  induction k with
  | zero => exact fun _ => .nil
  | succ k ih => exact fun t => (h t).append (ih (t + 1))

theorem alike_wire {net net' : Net} (h : ∀ t, SaySame (net t).arrive (net' t).arrive) (hf : ∀ t, (net t).kind ≠ .fail) (hf' : ∀ t, (net' t).kind ≠ .fail) :
    ∀ (n : Nat) (a b : Bytes) (t : Nat), SaySame a b → AlikeFor n net ⟨a, t⟩ net' ⟨b, t⟩ := by
  have ha := saySame_arrivals h
  have f1 : ∀ t k, NoFailure net t k := fun t k i _ => hf _
  have f2 : ∀ t k, NoFailure net' t k := fun t k i _ => hf' _
  intro n
  induction n with
  | zero => intros; trivial
  | succ n ih =>
    intro a b t hab
    have hw : ((⟨a, t⟩ : Conn).writeAll net).1 = ((⟨b, t⟩ : Conn).writeAll net').1 ∧
        AlikeFor n net ((⟨a, t⟩ : Conn).writeAll net).2 net' ((⟨b, t⟩ : Conn).writeAll net').2 := by
      refine ⟨?_, ih _ _ _ (hab.append (h t))⟩
      simp [Conn.writeAll, hf, hf']
    have h2 : SaySame ((⟨a, t⟩ : Conn).after net 2).buf ((⟨b, t⟩ : Conn).after net' 2).buf := hab.append (ha 2 t)
    suffices SameRead (readStream net ⟨a, t⟩).1 (readStream net' ⟨b, t⟩).1 ∧ AlikeFor n net (readStream net ⟨a, t⟩).2 net' (readStream net' ⟨b, t⟩).2 from
      ⟨this.1, this.2, hw.1, hw.2⟩
    generalize hx : ((⟨a, t⟩ : Conn).after net 2).buf = x at h2
    generalize hy : ((⟨b, t⟩ : Conn).after net' 2).buf = y at h2
    cases h2 with
    | nil =>
      rw [readStream_nothing hx (f1 _ _), readStream_nothing hy (f2 _ _)]
      exact ⟨.inl rfl, ih _ _ _ .nil⟩
    | handshake a1 a2 a3 =>
      rw [readStream_handshake₂ a1 a2 hx (f1 _ _), readStream_handshake₂ a1 a2 hy (f2 _ _)]
      exact ⟨.inl rfl, ih _ _ _ (a3.append (ha 2 _))⟩
    | frame a1 a2 a3 =>
      rw [readStream_frame₂ a1 a2 hx (f1 _ _), readStream_frame₂ a1 a2 hy (f2 _ _)]
      exact ⟨.inl rfl, ih _ _ _ (a3.append (ha 5 _))⟩
    | says a1 a2 a3 a4 a5 a6 =>
      rw [readStream_frame₂ a2 a4 hx (f1 _ _), readStream_frame₂ a3 a5 hy (f2 _ _)]
      exact ⟨.inr ⟨_, _, _, _, _, rfl, rfl, a1⟩, ih _ _ _ (a6.append (ha 5 _))⟩

/-- C115: so for two peers that send, at the same times, the same whole messages but for their bitfields and `have` messages. -/
theorem C115_wire (sha : Bytes → Bytes) (m : Build) (net net' : Net) (f : Nat) (peerId hash : Bytes) (info : Info) (idx : Nat)
    (h : ∀ t, SaySame (net t).arrive (net' t).arrive) (hf : ∀ t, (net t).kind ≠ .fail) (hf' : ∀ t, (net' t).kind ≠ .fail) :
    (downloadRun sha m net f peerId info idx).1 = (downloadRun sha m net' f peerId info idx).1 ∧
    written (downloadRun sha m net f peerId info idx).2.log = written (downloadRun sha m net' f peerId info idx).2.log ∧
    (getInfoRun m net f peerId hash).1 = (getInfoRun m net' f peerId hash).1 ∧
    written (getInfoRun m net f peerId hash).2.log = written (getInfoRun m net' f peerId hash).2.log :=
  C115_ignored sha m net net' f peerId hash info idx (fun n => alike_wire h hf hf' n [] [] 0 .nil)

/-- A peer that sends its handshake, a bitfield, the extension handshake and "unchoke", and then `rest`. -/
def claimant (bits : UInt8) (rest : Bytes) : Net :=
  script [sampleHandshake (List.replicate 20 7) ++ ([0, 0, 0, 2, 5, bits] ++ (sampleExtension b!"5" ++ (sampleUnchoke ++ rest)))]

/-- A message that carries block 0 of piece 0. -/
def blockOfThree : Bytes := blockMessage 0 0 [1, 2, 3]

theorem claimants_same (x y : UInt8) {rest : Bytes} (hr : SaySame rest rest) : ∀ t, SaySame (claimant x rest t).arrive (claimant y rest t).arrive := by
  intro t
  cases t with
  | zero =>
    refine .handshake (by decide +kernel) (by decide +kernel) (.says (id := 5) (x := [x]) (y := [y]) (f := [0, 0, 0, 2, 5, x]) (g := [0, 0, 0, 2, 5, y]) (.inr rfl)
      ⟨[0, 0, 0, 2], ⟨rfl, rfl⟩, rfl⟩ ⟨[0, 0, 0, 2], ⟨rfl, rfl⟩, rfl⟩ (by simp) (by simp) ?_)
    refine .frame (id := 20) (body := 0 :: b!"d1:md11:ut_metadatai3ee13:metadata_sizei5ee") ⟨[0, 0, 0, 45], ⟨rfl, by decide +kernel⟩, by decide +kernel⟩ (by decide +kernel) ?_
    exact .frame (id := 1) (body := []) ⟨[0, 0, 0, 1], ⟨rfl, rfl⟩, rfl⟩ (by decide +kernel) hr
  | succ t => exact .nil

/-- Non-vacuity: a seed and a peer that says it has nothing; the piece comes from either. -/
example : (∀ t, SaySame (claimant 0x80 blockOfThree t).arrive (claimant 0 blockOfThree t).arrive) ∧ (∀ b t, (claimant b blockOfThree t).kind ≠ .fail) ∧
    bitOf [0x80] 0 = true ∧ bitOf [0] 0 = false ∧
    (downloadRun (fun _ => List.replicate 20 7) .debug (claimant 0 blockOfThree) 40 (List.replicate 20 1) ⟨none, some 3, b!"a", 16384, List.replicate 20 7⟩ 0).1 =
      .ok [1, 2, 3] := by
  refine ⟨claimants_same _ _ ?_, fun b t => by simp [claimant, script], by decide, by decide, by decide +kernel⟩
  have := SaySame.frame (id := 7) (body := [0, 0, 0, 0, 0, 0, 0, 0, 1, 2, 3]) (frame := blockOfThree) ⟨[0, 0, 0, 12], ⟨rfl, by decide⟩, by decide +kernel⟩
    (by decide +kernel) .nil
  simpa using this

/-- An event that says nothing of piece `i`. -/
def saysNothing (i : Nat) : Ev → Bool
  | .got m => m.id != 4 && (match m.content with | .bitfield b => !bitOf b i | _ => true)
  | .sent _ => true

theorem not_offered {i : Nat} {log : List Ev} (h : log.all (saysNothing i) = true) : ¬ Offered i log := by
  rintro ⟨m, h1, h2⟩
  have := List.all_eq_true.mp h _ h1
  rcases h2 with h2 | ⟨b, h2, h3⟩
  · simp [saysNothing, h2] at this
  · simp [saysNothing, h2, h3] at this

/-- C115 is refuted: a peer whose bitfield says it has nothing is asked for piece 0. -/
theorem C115_refuted : ∃ (sha : Bytes → Bytes) (net : Net) (info : Info) (pre post : List Ev) (x : Bytes),
    (downloadRun sha .release net 40 (List.replicate 20 1) info 0).2.log = pre ++ .sent x :: post ∧
    IsBlockRequest 0 0 3 x ∧ Ev.got ⟨5, 1, .bitfield [0]⟩ ∈ pre ∧ ¬ Offered 0 pre := by
  let log := (downloadRun (fun _ => List.replicate 20 7) .release (claimant 0 []) 40 (List.replicate 20 1)
    ⟨none, some 3, b!"a", 16384, List.replicate 20 7⟩ 0).2.log
  have e : log = log.take 7 ++ .sent [0, 0, 0, 13, 6, 0, 0, 0, 0, 0, 0, 0, 0, 0, 0, 0, 3] :: log.drop 8 := by decide +kernel
  refine ⟨fun _ => List.replicate 20 7, claimant 0 [], ⟨none, some 3, b!"a", 16384, List.replicate 20 7⟩, log.take 7, log.drop 8, _, e, ?_, ?_, not_offered ?_⟩
  · exact ⟨[0, 0, 0, 0], [0, 0, 0, 0], [0, 0, 0, 3], ⟨rfl, rfl⟩, ⟨rfl, rfl⟩, ⟨rfl, rfl⟩, [0, 0, 0, 13], ⟨rfl, rfl⟩, rfl⟩
  · decide +kernel
  · decide +kernel

end RustBit
