/-
Model of src/peer/{mod,buffer,manager}.rs and src/peer/download/{mod,block,info}.rs.
-/
import Verif.Model.Stream
import Verif.Model.Info

namespace RustBit

/-- History variable (not in the source): what was handed to the socket and which messages were
processed, in order. The code never reads it. -/
inductive Ev where
  | sent (bytes : Bytes)
  | got (m : Message)
  deriving Repr, DecidableEq

/-- src/peer/mod.rs:18-27 `struct Peer`, with the history `log`. -/
structure Peer where
  id : Bytes
  choked : Bool
  active : Bool
  bitfield : List Bool
  metadataSize : Nat
  extensions : List (Bytes × UInt8)
  conn : Conn
  infoHash : Bytes
  log : List Ev
  deriving Repr, DecidableEq

namespace Peer

/-- src/peer/mod.rs:30-41 `Peer::new`; the generated peer id is a parameter. -/
def new (conn : Conn) (infoHash peerId : Bytes) : Peer :=
  { id := peerId, choked := true, active := false, bitfield := [], metadataSize := 0,
    extensions := [], conn, infoHash, log := [] }

/-- src/peer/mod.rs:55-57 `is_ready`. -/
def isReady (p : Peer) : Bool := decide (p.metadataSize ≠ 0) && !p.choked

/-- src/peer/mod.rs:106-124 `apply_content`. -/
def applyContent (p : Peer) (m : Message) : Peer :=
  match m.content with
  | .bitfield b => { p with bitfield := bitVector b }
  | .extension e =>
    if e.isHandshake then
      { p with extensions := e.extensions, metadataSize := e.metadataSize.getD 0 }
    else p
  | .handshake h => { p with active := decide (p.infoHash = h.infoHash) }
  | _ => p

/-- src/peer/mod.rs:76-104: the state changes of `apply_message`. -/
def applyState (p : Peer) (m : Message) : Peer :=
  if m.id = 0 then { p with choked := true }
  else if m.id = 1 then { p with choked := false }
  else if m.id = 2 ∨ m.id = 5 ∨ m.id = 19 ∨ m.id = 20 then p.applyContent m
  else p

/-- src/peer/mod.rs:76-104 `apply_message` (and the entry in the history). -/
def applyMessage (p : Peer) (m : Message) : Peer :=
  { p.applyState m with log := p.log ++ [.got m] }

/-- src/peer/mod.rs:126-131 `read_message`. -/
def readMessage {ε : Type} (net : Net) (p : Peer) : Res ε (Option Message) × Peer :=
  match readStream net p.conn with
  | (none, c) => (.ok none, { p with conn := c })
  | (some (body, id, length), c) =>
    match Message.newRaw body length id with
    | .ok m => (.ok (some m), { p with conn := c })
    | .err _ => (.ok none, { p with conn := c })
    | .panic => (.panic, { p with conn := c })
    | .hang => (.hang, { p with conn := c })

/-- Writing bytes to the socket; `false` for `Err`. -/
def write (net : Net) (p : Peer) (bytes : Bytes) : Bool × Peer :=
  match p.conn.writeAll net with
  | (ok, c) => (ok, { p with conn := c, log := p.log ++ [.sent bytes] })

/-- src/peer/mod.rs:133-135 `send_message` (`write_stream`, src/peer/stream.rs:148-153, ignores errors). -/
def sendMessage (net : Net) (p : Peer) (m : Message) : Peer := (p.write net m.asBytes).2

/-- src/peer/mod.rs:137-139, src/peer/stream.rs:155-167 `send_metadata_handshake_request`. -/
def sendMetadataHandshakeRequest (net : Net) (p : Peer) : Bool × Peer :=
  p.write net extensionHandshakeBytes

end Peer

/-! ### buffer.rs and download -/

/-- src/peer/download/mod.rs:10-13 `enum Downloadable`. -/
inductive Downloadable where
  | info
  | block (pieceLength pieceIndex totalLength : Nat)
  deriving Repr, DecidableEq

/-- src/peer/download/mod.rs:16-21 `enum DownloadableError`. -/
inductive DownloadableError where
  | chokedPeer
  | idle
  deriving Repr, DecidableEq

/-- src/peer/buffer.rs:4-13 `struct MessageBuffer` without the two function fields (see
`messageFilter`, `nextMessage`). -/
structure MessageBuffer where
  buffer : List Message
  capacity : Nat
  expectedSize : Nat
  deriving Repr, DecidableEq

/-- The filter passed by src/peer/download/mod.rs:28, 37 (src/peer/download/info.rs:13-15,
src/peer/download/block.rs:30-32). -/
def Downloadable.messageFilter : Downloadable → Message → Bool
  | .info => Message.isExtensionData
  | .block .. => Message.isRequest

/-- src/peer/download/mod.rs:7 -/
def BLOCK_SIZE : Nat := 16384

/-- src/peer/download/mod.rs:8 -/
def INFO_PIECE_SIZE : Nat := 16384

/-- src/peer/download/block.rs:34-41 `get_block_size`. -/
def getBlockSize {ε : Type} (m : Build) (blockOffset torrentLength pieceOffset blockSize : Nat) :
    Res ε Nat := do
  let o ← uadd m blockOffset pieceOffset
  let r ← usub m torrentLength o
  .ok (min r blockSize)

/-- src/peer/download/block.rs:15-26: the request for one block. The `as u32` casts truncate. -/
def blockRequest {ε : Type} (m : Build) (pieceLength pieceIndex totalLength blockIndex : Nat) :
    Res ε Message := do
  let off ← umul m blockIndex BLOCK_SIZE
  let po ← umul m pieceIndex pieceLength
  let len ← getBlockSize m off totalLength po BLOCK_SIZE
  .ok (newRequest (pieceIndex % 2 ^ 32) (off % 2 ^ 32) (len % 2 ^ 32))

/-- The request sent by `next_message` for index `i`: src/peer/download/info.rs:6-11 (where
`get_extension_id_by_name`, src/peer/mod.rs:72-74, panics if the peer did not name its `ut_metadata`
id) or src/peer/download/block.rs:14-27. -/
def Downloadable.request {ε : Type} (m : Build) (d : Downloadable) (p : Peer) (i : Nat) :
    Res ε Message :=
  match d with
  | .info => match mapGet p.extensions b!"ut_metadata" with
    | some ext => newMetadata ext i
    | none => .panic
  | .block pl pi tl => blockRequest m pl pi tl i

namespace MessageBuffer

/-- src/peer/buffer.rs:47-49 `is_full`. -/
def isFull (b : MessageBuffer) : Bool := b.buffer.length == b.capacity

/-- src/peer/buffer.rs:33-37 `push_message`. -/
def pushMessage (b : MessageBuffer) (d : Downloadable) (m : Message) : MessageBuffer :=
  if d.messageFilter m && !b.isFull then { b with buffer := b.buffer ++ [m] } else b

/-- src/peer/buffer.rs:58-60 `is_len_as_expected`. -/
def isLenAsExpected (b : MessageBuffer) : Bool := b.expectedSize == b.buffer.length + 1

/-- src/peer/buffer.rs:39-45 `request_next_message`. -/
def requestNextMessage {ε : Type} (m : Build) (net : Net) (b : MessageBuffer) (d : Downloadable)
    (p : Peer) : Res ε MessageBuffer × Peer :=
  if b.isLenAsExpected || b.isFull then (.ok b, p)
  else match (d.request m p b.buffer.length : Res ε Message) with
    | .ok msg => (.ok { b with expectedSize := b.expectedSize + 1 }, p.sendMessage net msg)
    | .err e => (.err e, p)
    | .panic => (.panic, p)
    | .hang => (.hang, p)

/-- src/peer/buffer.rs:51-56 `assemble_content`. -/
def assembleContent (b : MessageBuffer) : Bytes := b.buffer.flatMap Message.contentData

end MessageBuffer

/-- State of the loop of `execute`. -/
structure DState where
  peer : Peer
  buf : MessageBuffer
  idle : Nat
  deriving Repr, DecidableEq

/-- How a loop iteration ends: the loop goes on, or the function is left with a result. -/
inductive Flow where
  | again (s : DState)
  | done (r : Res DownloadableError Bytes) (p : Peer)
  deriving Repr, DecidableEq

/-- src/peer/download/mod.rs:71-85: the part of an iteration after the message has been handled. -/
def execTail (m : Build) (net : Net) (d : Downloadable) (s : DState) : Flow :=
  if s.buf.isFull then .done (.ok s.buf.assembleContent) s.peer
  else if s.peer.choked then .done (.err .chokedPeer) s.peer
  else match s.buf.requestNextMessage (ε := DownloadableError) m net d s.peer with
    | (.ok b, p) =>
      if s.idle + 1 > 10 then .done (.err .idle) p else .again ⟨p, b, s.idle + 1⟩
    | (.err e, p) => .done (.err e) p
    | (.panic, p) => .done .panic p
    | (.hang, p) => .done .hang p

/-- src/peer/download/mod.rs:64-86: one iteration of the loop of `execute`. -/
def execStep (m : Build) (net : Net) (d : Downloadable) (s : DState) : Flow :=
  match s.peer.readMessage (ε := DownloadableError) net with
  | (.ok (some msg), p) =>
    execTail m net d ⟨p.applyMessage msg, s.buf.pushMessage d msg, 0⟩
  | (.ok none, p) => execTail m net d { s with peer := p }
  | (.err e, p) => .done (.err e) p
  | (.panic, p) => .done .panic p
  | (.hang, p) => .done .hang p

/-- The loop state or result after at most `f` iterations. -/
def execRun (m : Build) (net : Net) (d : Downloadable) : Nat → DState → Flow
  | 0, s => .again s
  | f + 1, s => match execStep m net d s with
    | .again s' => execRun m net d f s'
    | .done r p => .done r p

/-- src/peer/download/mod.rs:58-87 `execute`, cut off after `f` iterations (`hang`). -/
def execute (m : Build) (net : Net) (d : Downloadable) (f : Nat) (p : Peer) (capacity : Nat) :
    Res DownloadableError Bytes × Peer :=
  match execRun m net d f ⟨p, ⟨[], capacity, 0⟩, 0⟩ with
  | .again s => (.hang, s.peer)
  | .done r p => (r, p)

/-- src/peer/download/mod.rs:50-56 `real_piece_length`. -/
def realPieceLength {ε : Type} (m : Build) (pieceLength pieceIndex totalLength : Nat) : Res ε Nat := do
  let j ← uadd m pieceIndex 1
  let e ← umul m pieceLength j
  if e > totalLength then do
    let o ← umul m pieceLength pieceIndex
    usub m totalLength o
  else .ok pieceLength

/-- The capacity computed by src/peer/download/mod.rs:30 and 39-41. -/
def Downloadable.capacity {ε : Type} (m : Build) (d : Downloadable) (p : Peer) : Res ε Nat :=
  match d with
  | .info => stepByLen p.metadataSize INFO_PIECE_SIZE
  | .block pl pi tl => do
    let n ← realPieceLength m pl pi tl
    stepByLen n BLOCK_SIZE

/-- src/peer/download/mod.rs:24-47 `Downloadable::download`. -/
def Downloadable.download (m : Build) (net : Net) (d : Downloadable) (f : Nat) (p : Peer) :
    Res DownloadableError Bytes × Peer :=
  match (d.capacity m p : Res DownloadableError Nat) with
  | .ok cap => execute m net d f p cap
  | .err e => (.err e, p)
  | .panic => (.panic, p)
  | .hang => (.hang, p)

/-! ### manager.rs -/

/-- src/peer/manager.rs:11-28 `enum PeerManagerError` (`PieceDownloadFailure` carries the error whose
text the source stores). -/
inductive PeerManagerError where
  | handshake
  | handshakeMetadata
  | peerNotReady
  | pieceDownloadFailure (e : DownloadableError)
  | pieceVerificationFailure
  | stream
  | info (e : InfoError)
  | download (e : DownloadableError)
  deriving Repr, DecidableEq

/-- src/peer/manager.rs:87-90, 101-104: read a message, if there is one, and apply it. -/
def readAndApply (net : Net) (p : Peer) : Res PeerManagerError Unit × Peer :=
  match p.readMessage (ε := PeerManagerError) net with
  | (.ok (some msg), p) => (.ok (), p.applyMessage msg)
  | (.ok none, p) => (.ok (), p)
  | (.err e, p) => (.err e, p)
  | (.panic, p) => (.panic, p)
  | (.hang, p) => (.hang, p)

/-- src/peer/manager.rs:100-110: at most `k` messages until the peer is ready. -/
def readyLoop (net : Net) : Nat → Peer → Res PeerManagerError Unit × Peer
  | 0, p => (.err .peerNotReady, p)
  | k + 1, p =>
    match readAndApply net p with
    | (.ok (), p) => if p.isReady then (.ok (), p) else readyLoop net k p
    | (.err e, p) => (.err e, p)
    | (.panic, p) => (.panic, p)
    | (.hang, p) => (.hang, p)

/-- src/peer/manager.rs:85-111 `init_peer`. -/
def initPeer (net : Net) (p : Peer) : Res PeerManagerError Unit × Peer :=
  let p := p.sendMessage net (newHandshake p.infoHash p.id)
  match readAndApply net p with
  | (.ok (), p) =>
    if !p.active then (.err .handshake, p)
    else
      let p := p.sendMessage net newInterested
      match p.sendMetadataHandshakeRequest net with
      | (false, p) => (.err .handshakeMetadata, p)
      | (true, p) => readyLoop net 10 p
  | (.err e, p) => (.err e, p)
  | (.panic, p) => (.panic, p)
  | (.hang, p) => (.hang, p)

/-- The outcome of src/peer/stream.rs:55-66 `StreamInterface::connect(endpoint, false)`: the endpoint does
not parse (`expect` panics), the connection cannot be made, or it is made and the network behaves
as the schedule says. -/
inductive Dial where
  | unparsable
  | refused
  | connected (net : Net)

/-- src/peer/manager.rs:30-39 `get_info`, with the final state of the peer. -/
def getInfoRun (m : Build) (net : Net) (f : Nat) (peerId infoHash : Bytes) :
    Res PeerManagerError Info × Peer :=
  match initPeer net (Peer.new ⟨[], 0⟩ infoHash peerId) with
  | (.ok (), p) =>
    match Downloadable.info.download m net f p with
    | (.ok b, p) => ((Info.fromBytes b).mapErr .info, p)
    | (.err e, p) => (.err (.download e), p)
    | (.panic, p) => (.panic, p)
    | (.hang, p) => (.hang, p)
  | (.err e, p) => (.err e, p)
  | (.panic, p) => (.panic, p)
  | (.hang, p) => (.hang, p)

/-- src/peer/manager.rs:30-39 `get_info`. -/
def getInfo (m : Build) (dial : Dial) (f : Nat) (peerId infoHash : Bytes) : Res PeerManagerError Info :=
  match dial with
  | .unparsable => .panic
  | .refused => .err .stream
  | .connected net => (getInfoRun m net f peerId infoHash).1

/-- src/peer/manager.rs:63-82: `download` after the connection has been made. -/
def downloadRun (sha : Bytes → Bytes) (m : Build) (net : Net) (f : Nat) (peerId : Bytes) (info : Info)
    (pieceIdx : Nat) : Res PeerManagerError Bytes × Peer :=
  match initPeer net (Peer.new ⟨[], 0⟩ (info.computeInfoHash sha) peerId) with
  | (.ok (), p) =>
    match (info.getTotalLength m : Res PeerManagerError Nat) with
    | .ok total =>
      match (Downloadable.block info.pieceLength pieceIdx total).download m net f p with
      | (.ok piece, p) =>
        ((info.verifyPiece sha piece pieceIdx : Res PeerManagerError Bool) >>= fun ok =>
          if ok then .ok piece else .err .pieceVerificationFailure, p)
      | (.err e, p) => (.err (.pieceDownloadFailure e), p)
      | (.panic, p) => (.panic, p)
      | (.hang, p) => (.hang, p)
    | .err e => (.err e, p)
    | .panic => (.panic, p)
    | .hang => (.hang, p)
  | (.err e, p) => (.err e, p)
  | (.panic, p) => (.panic, p)
  | (.hang, p) => (.hang, p)

/-- src/peer/manager.rs:57-83 `download`. -/
def downloadPiece (sha : Bytes → Bytes) (m : Build) (dial : Dial) (f : Nat) (peerId : Bytes)
    (info : Info) (pieceIdx : Nat) : Res PeerManagerError Bytes :=
  match dial with
  | .unparsable => .panic
  | .refused => .err .stream
  | .connected net => (downloadRun sha m net f peerId info pieceIdx).1

end RustBit
