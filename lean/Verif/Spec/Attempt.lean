/-
What can go wrong in an attempt with a peer, in terms of the messages that come.
-/
import Verif.Spec.LogTells
import Verif.Spec.Errors

namespace Spec
open RustBit

/-- `k` reads in a row on a connection, and the messages they give: a read gives nothing if nothing complete is there, or what is there
cannot be read as a message. -/
inductive Polls (net : Net) : Conn → Nat → List Message → Conn → Prop where
  | none (c : Conn) : Polls net c 0 [] c
  | nothing {c c1 c2 : Conn} {k : Nat} {ms : List Message} : readStream net c = (none, c1) → Polls net c1 k ms c2 → Polls net c (k + 1) ms c2
  | garbled {c c1 c2 : Conn} {k : Nat} {ms : List Message} {body : Bytes} {id : UInt8} {len : Nat} {e : Bytes} :
      readStream net c = (some (body, id, len), c1) → Message.newRaw body len id = .err e → Polls net c1 k ms c2 → Polls net c (k + 1) ms c2
  | message {c c1 c2 : Conn} {k : Nat} {ms : List Message} {body : Bytes} {id : UInt8} {len : Nat} {m : Message} :
      readStream net c = (some (body, id, len), c1) → Message.newRaw body len id = .ok m → Polls net c1 k ms c2 → Polls net c (k + 1) (m :: ms) c2

/-- `k` reads that give nothing, with any writes between them. -/
inductive Quiet (net : Net) : Conn → Nat → Conn → Prop where
  | none (c : Conn) : Quiet net c 0 c
  | read {c c1 c2 : Conn} {k : Nat} : Quiet net c k c1 → Polls net c1 1 [] c2 → Quiet net c (k + 1) c2
  | write {c c1 : Conn} {k : Nat} : Quiet net c k c1 → Quiet net c k (c1.writeAll net).2

/-- The first message is a handshake for the torrent. -/
def Presents (hash : Bytes) : List Message → Prop
  | [] => False
  | m :: _ => m.id = 19 ∧ ∃ x, m.content = .handshake x ∧ x.infoHash = hash

/-- Is a peer choking us that has sent these messages? -/
def chokingAfter (ms : List Message) : Bool := choking true (ms.map .got)

/-- The size of the metadata a peer has announced that has sent these messages (0: none). -/
def sizeAfter (ms : List Message) : Nat := announcedSize 0 (ms.map .got)

/-- A peer that has sent these messages can be asked: it has announced metadata and does not choke us. -/
def ReadyAfter (ms : List Message) : Prop := sizeAfter ms ≠ 0 ∧ chokingAfter ms = false

/-- The connection after a write. -/
def afterWrite (net : Net) (c : Conn) : Conn := (c.writeAll net).2

/-- Opening a connection: the messages that came, the connection afterwards, and what went wrong, if anything. -/
inductive Opens (net : Net) (hash : Bytes) : Option PeerManagerError → List Message → Conn → Prop where
  /-- The first read does not give a handshake for the torrent. -/
  | handshake {ms : List Message} {c : Conn} : Polls net (afterWrite net ⟨[], 0⟩) 1 ms c → ¬ Presents hash ms →
      Opens net hash (some .handshake) ms c
  /-- It does, but our extension handshake cannot be sent. -/
  | extension {ms : List Message} {c c1 : Conn} : Polls net (afterWrite net ⟨[], 0⟩) 1 ms c → Presents hash ms →
      (afterWrite net c).writeAll net = (false, c1) → Opens net hash (some .handshakeMetadata) ms c1
  /-- It is sent, but after none of the next ten reads the peer can be asked. -/
  | notReady {ms later : List Message} {c c1 c2 : Conn} : Polls net (afterWrite net ⟨[], 0⟩) 1 ms c → Presents hash ms →
      (afterWrite net c).writeAll net = (true, c1) → Polls net c1 10 later c2 →
      (∀ k ms' c', k ≤ 10 → Polls net c1 k ms' c' → ¬ ReadyAfter (ms ++ ms')) → Opens net hash (some .peerNotReady) (ms ++ later) c2
  /-- After the `k`-th of them, and not earlier, it can be asked. -/
  | ready {ms later : List Message} {c c1 c2 : Conn} {k : Nat} : Polls net (afterWrite net ⟨[], 0⟩) 1 ms c → Presents hash ms →
      (afterWrite net c).writeAll net = (true, c1) → k ≤ 10 → Polls net c1 k later c2 → ReadyAfter (ms ++ later) →
      (∀ k' ms' c', k' < k → Polls net c1 k' ms' c' → ¬ ReadyAfter (ms ++ ms')) → Opens net hash none (ms ++ later) c2

/-- The call came to an end, with a value or an error. -/
def Returned {ε α : Type} : Res ε α → Prop
  | .ok _ => True
  | .err _ => True
  | _ => False

/-- What went wrong with a transfer of `n` blocks, the peer having sent `later` in it: it chokes us, or it sends nothing in ten reads. -/
inductive Stops (net : Net) (d : Downloadable) (n : Nat) (later : List Message) (c : Conn) : DownloadableError → Prop where
  | choked : (later.filter (isAnswer d)).length < n → choking false (later.map .got) = true → Stops net d n later c .chokedPeer
  | idle : (later.filter (isAnswer d)).length < n → choking false (later.map .got) = false → (∃ c0, Quiet net c0 10 c) →
      Stops net d n later c .idle

/-- The number of blocks of so many bytes. -/
def blockCount (size : Nat) : Nat := (size + 16383) / 16384

/-- The data of the answers among some messages. -/
def answered (d : Downloadable) (ms : List Message) : Bytes := (ms.filter (isAnswer d)).flatMap Message.contentData

/-- What went wrong with fetching metadata from a peer that has sent the messages `all`. -/
inductive MetadataFails (net : Net) (hash : Bytes) (all : List Message) (c : Conn) : PeerManagerError → Prop where
  | opening {e : PeerManagerError} : Opens net hash (some e) all c → MetadataFails net hash all c e
  | transfer {ms later : List Message} {c1 : Conn} {e : DownloadableError} : Opens net hash none ms c1 → all = ms ++ later →
      Stops net .info (blockCount (sizeAfter ms)) later c e → MetadataFails net hash all c (.download e)
  | content {ms later : List Message} {c1 : Conn} {e : InfoError} : Opens net hash none ms c1 → all = ms ++ later →
      (later.filter (isAnswer .info)).length = blockCount (sizeAfter ms) → WrongBytes (answered .info later) e →
      MetadataFails net hash all c (.info e)

/-- What went wrong with fetching a piece of `size` bytes whose hash should be `listed`. -/
inductive PieceFails (sha : Bytes → Bytes) (net : Net) (hash : Bytes) (d : Downloadable) (size : Nat) (listed : Bytes) (all : List Message) (c : Conn) :
    PeerManagerError → Prop where
  | opening {e : PeerManagerError} : Opens net hash (some e) all c → PieceFails sha net hash d size listed all c e
  | transfer {ms later : List Message} {c1 : Conn} {e : DownloadableError} : Opens net hash none ms c1 → all = ms ++ later →
      Stops net d (blockCount size) later c e → PieceFails sha net hash d size listed all c (.pieceDownloadFailure e)
  | content {ms later : List Message} {c1 : Conn} : Opens net hash none ms c1 → all = ms ++ later →
      (later.filter (isAnswer d)).length = blockCount size → sha (answered d later) ≠ listed →
      PieceFails sha net hash d size listed all c .pieceVerificationFailure

/-- A peer that has sent the messages `all` has delivered `data` as the answers to requests for `size` bytes (which may depend on what came in
the opening). -/
def Supplied (net : Net) (hash : Bytes) (d : Downloadable) (size : List Message → Nat) (all : List Message) (data : Bytes) : Prop :=
  ∃ ms later c, Opens net hash none ms c ∧ all = ms ++ later ∧ (later.filter (isAnswer d)).length = blockCount (size ms) ∧
    data = answered d later

end Spec
