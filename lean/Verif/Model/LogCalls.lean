/-
What is logged when: the records of an attempt with a peer, in order. The functions follow `Model/Peer.lean` call by call and use its results.
-/
import Verif.Model.LogText

namespace RustBit

/-- What the records say that the model does not compute: the position at which the decoder found that a number does not fit, and the error of a
system call that fails. -/
structure LogEnv where
  pos : Bytes → Nat
  err : Nat → IoError

/-- src/bencode/decode.rs:49-69: the records of decoding some bytes. Such an error ends the decoding (`?` on lines 74, 84, 98, 111 and 117). -/
def decodeLog (env : LogEnv) (c : Bytes) : List LogRec :=
  match Decoder.decode c with
  | .err (.badNumberFromString pos) => [.notText pos]
  | .err (.badNumberDecode _) => [.notNumber (env.pos c)]
  | _ => []

/-- src/messages/extension.rs:97-107: the values of `build_extensions_map` that are no integers. -/
def noIntegers (m : List (Bytes × Metainfo)) : List LogRec :=
  m.filterMap fun (_, v) => match v with
    | .integer _ => none
    | v => some (.noExtensionValue v)

/-- src/messages/extension.rs:32-60 `from_bytes`. -/
def extensionLog (env : LogEnv) (bytes : Bytes) : List LogRec :=
  match (sliceFrom bytes 1 : Res Bytes Bytes) with
  | .ok body => decodeLog env body ++ match Decoder.decode body with
    | .err e => [.extensionBad e]
    | .ok (content, _) => match okValue (content.getValueFromDict b!"m") with
      | some e => noIntegers ((okValue e.getDictContent).getD [])
      | none => []
    | _ => []
  | _ => []

/-- src/messages/mod.rs:36-51 `new_raw`. -/
def newRawLog (env : LogEnv) (body : Bytes) (id : UInt8) : List LogRec := if id = 20 then extensionLog env body else []

/-- src/peer/mod.rs:106-124 `apply_content`. -/
def Peer.contentLog (p : Peer) (m : Message) : List LogRec :=
  match m.content with
  | .bitfield _ | .extension _ | .handshake _ => []
  | _ => [.notManaged p.id m]

/-- src/peer/mod.rs:76-104 `apply_message`. -/
def Peer.applyLog (p : Peer) (m : Message) : List LogRec :=
  if m.id = 0 ∨ m.id = 1 then [.gotMessage p.id m.id]
  else if m.id = 2 ∨ m.id = 5 ∨ m.id = 19 ∨ m.id = 20 then .gotMessage p.id m.id :: p.contentLog m
  else []

/-- src/peer/mod.rs:126-131 `read_message` and then `apply_message`; `no` is logged if there is no message (src/peer/manager.rs:87-90, 101-104 and
src/peer/download/mod.rs:65-69). -/
def Peer.readLog (env : LogEnv) (net : Net) (no : List LogRec) (p : Peer) : List LogRec :=
  match readStream net p.conn with
  | (none, _) => no
  | (some (body, id, length), c) => newRawLog env body id ++ match Message.newRaw body length id with
    | .ok m => Peer.applyLog { p with conn := c } m
    | .err _ => no
    | _ => []

/-- src/peer/stream.rs:148-153 `write_stream`. -/
def Peer.writeLog (env : LogEnv) (net : Net) (p : Peer) (bytes : Bytes) : List LogRec :=
  if (p.conn.writeAll net).1 then [] else [.writeFailed (env.err p.conn.t) bytes]

/-- src/peer/manager.rs:100-110. -/
def readyLoopLog (env : LogEnv) (net : Net) : Nat → Peer → List LogRec
  | 0, _ => []
  | k + 1, p => p.readLog env net [.noMessage false] ++ match readAndApply net p with
    | (.ok (), p) => if p.isReady then [] else readyLoopLog env net k p
    | _ => []

/-- src/peer/manager.rs:85-111 `init_peer`. (`send_metadata_handshake_request` logs nothing, src/peer/stream.rs:155-167.) -/
def initPeerLog (env : LogEnv) (net : Net) (p : Peer) : List LogRec :=
  p.writeLog env net (newHandshake p.infoHash p.id).asBytes ++
    (let p := p.sendMessage net (newHandshake p.infoHash p.id)
    p.readLog env net [.noMessage true] ++ match readAndApply net p with
    | (.ok (), p) =>
      if !p.active then []
      else p.writeLog env net newInterested.asBytes ++ match (p.sendMessage net newInterested).sendMetadataHandshakeRequest net with
        | (false, _) => []
        | (true, p) => readyLoopLog env net 10 p
    | _ => [])

/-- src/peer/buffer.rs:39-45 `request_next_message`. -/
def MessageBuffer.requestLog (env : LogEnv) (m : Build) (net : Net) (b : MessageBuffer) (d : Downloadable) (p : Peer) : List LogRec :=
  if b.isLenAsExpected || b.isFull then []
  else match (d.request m p b.buffer.length : Res DownloadableError Message) with
    | .ok msg => p.writeLog env net msg.asBytes
    | _ => []

/-- src/peer/download/mod.rs:71-85. -/
def execTailLog (env : LogEnv) (m : Build) (net : Net) (d : Downloadable) (s : DState) : List LogRec :=
  if s.buf.isFull then [] else if s.peer.choked then [] else s.buf.requestLog env m net d s.peer

/-- src/peer/download/mod.rs:64-86: one iteration of the loop of `execute`. -/
def execStepLog (env : LogEnv) (m : Build) (net : Net) (d : Downloadable) (s : DState) : List LogRec :=
  s.peer.readLog env net [] ++ match s.peer.readMessage (ε := DownloadableError) net with
  | (.ok (some msg), p) => execTailLog env m net d ⟨p.applyMessage msg, s.buf.pushMessage d msg, 0⟩
  | (.ok none, p) => execTailLog env m net d { s with peer := p }
  | _ => []

/-- src/peer/download/mod.rs:58-87 `execute`: the first `f` iterations. -/
def execRunLog (env : LogEnv) (m : Build) (net : Net) (d : Downloadable) : Nat → DState → List LogRec
  | 0, _ => []
  | f + 1, s => execStepLog env m net d s ++ match execStep m net d s with
    | .again s' => execRunLog env m net d f s'
    | .done _ _ => []

/-- src/peer/download/mod.rs:24-47 `download`: the first `f` iterations; `full` is logged at the end if all goes well. -/
def downloadLoopLog (env : LogEnv) (m : Build) (net : Net) (d : Downloadable) (f : Nat) (p : Peer) (full : Bytes → List LogRec) : List LogRec :=
  match (d.capacity m p : Res DownloadableError Nat) with
  | .ok cap => execRunLog env m net d f ⟨p, ⟨[], cap, 0⟩, 0⟩ ++ match execRun m net d f ⟨p, ⟨[], cap, 0⟩, 0⟩ with
    | .done (.ok b) _ => full b
    | _ => []
  | _ => []

/-- src/peer/manager.rs:30-39 `get_info`, after the connection has been made. (`from_bytes`, src/torrent/info.rs:32-57, logs what the decoder
logs.) -/
def getInfoLog (env : LogEnv) (m : Build) (net : Net) (f : Nat) (peerId infoHash : Bytes) : List LogRec :=
  initPeerLog env net (Peer.new ⟨[], 0⟩ infoHash peerId) ++ match initPeer net (Peer.new ⟨[], 0⟩ infoHash peerId) with
  | (.ok (), p) => downloadLoopLog env m net .info f p (decodeLog env)
  | _ => []

/-- src/peer/manager.rs:63-82: `download` after the connection has been made. -/
def downloadRunLog (sha : Bytes → Bytes) (env : LogEnv) (m : Build) (net : Net) (f : Nat) (peerId endpoint : Bytes) (info : Info) (pieceIdx : Nat) :
    List LogRec :=
  initPeerLog env net (Peer.new ⟨[], 0⟩ (info.computeInfoHash sha) peerId) ++
    match initPeer net (Peer.new ⟨[], 0⟩ (info.computeInfoHash sha) peerId) with
  | (.ok (), p) => .startDownload p.id pieceIdx endpoint :: match (info.getTotalLength m : Res PeerManagerError Nat) with
    | .ok total => downloadLoopLog env m net (.block info.pieceLength pieceIdx total) f p fun _ => [.completedDownload p.id pieceIdx endpoint]
    | _ => []
  | _ => []

end RustBit
