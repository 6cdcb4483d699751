/-
What is logged when: the records of asking a tracker, of the metadata cache and of writing a piece, in order. The functions follow `Model/Tracker.lean`,
`Model/Cache.lean` and `Model/Disk.lean` call by call and use their results.
-/
import Verif.Model.LogCalls
import Verif.Model.Tracker
import Verif.Model.Disk

namespace RustBit

/-- src/tracker/udp_tracker.rs:70-80, the retry loop of `connect_to_tracker` with the given number of retries left: the retries count from 1 to 4. -/
def connectLoopLog (net : UdpNet) (message : Bytes) : Nat → UdpState → Bytes → List LogRec
  | 0, _, _ => []
  | n + 1, s, buf =>
    let (r, s) := sendUdp net s message
    (match r with
      | .err _ => [.udpSendFailed (4 - n)]
      | _ => []) ++
    match readUdp net s buf with
    | (.err _, s) => connectLoopLog net message n s buf
    | _ => []

/-- src/tracker/udp_tracker.rs:21-60 `call`: nothing else is logged. -/
def udpCallLog (net : UdpNet) (url : TrackerUrl) : List LogRec :=
  if !net.bind then []
  else match url.hostStr, url.port with
    | some h, some p =>
      if net.connect (h ++ c!":" :: decimal p) then connectLoopLog net (makeConnectionMessage transactionId) 4 ⟨[], 0⟩ (List.replicate 16 0) else []
    | _, _ => []

/-- src/tracker/tcp_tracker.rs:22-41 `call`: what the decoder logs. -/
def tcpCallLog (env : LogEnv) (http : Bytes → HttpGet) (infoHash peerId : Bytes) (url : TrackerUrl) : List LogRec :=
  match http (announceUrl url infoHash peerId) with
  | .body b => decodeLog env b
  | _ => []

/-- src/tracker/mod.rs:27-44 `get_peers_by_tracker`; `view` is what `Debug` shows of the URL (line 41). -/
def lookupLog (env : LogEnv) (udp : UdpNet) (http : Bytes → HttpGet) (peerId : Bytes) (url : TrackerUrl) (view : UrlView) (infoHash : Bytes) :
    List LogRec :=
  (if url.scheme = b!"http" then tcpCallLog env http infoHash peerId url
    else if url.scheme = b!"udp" then udpCallLog udp url
    else []) ++
  match getPeersByTracker udp http peerId url infoHash with
  | (.ok peers, _) => [.peersFound peers.length view]
  | _ => []

/-- Whether `File::open(path)` succeeds: there is a file or a directory (permissions are not modelled). -/
def FS.canOpen (fs : FS) (cwd : Loc) (path : Bytes) : Bool :=
  let p := PathBuf.parse path
  if hasNul p.comps then false
  else match fs.walk (p.base cwd) p.comps.dropLast, p.comps.getLast? with
    | .ok l, some name =>
      if name = b!".." then true
      else match fs (l ++ [name]) with
        | some .dir => true
        | some (.file _) => !p.trailing
        | none => false
    | .ok _, none => true
    | _, _ => false

/-- src/torrent/info.rs:60-78 `from_file`. -/
def fromFileLog (env : LogEnv) (cwd : Loc) (fs : FS) (path : Bytes) : List LogRec :=
  if fs.canOpen cwd path then
    .cacheFound path :: match fs.readToString cwd path with
      | none => [.cacheUnreadable (env.err 0) path]
      | some _ => []
  else []

/-- src/torrent/info.rs:80-90 `save`. -/
def saveLog (env : LogEnv) (i : Info) (cwd : Loc) (fs : FS) (path : Bytes) (room : Nat) : List LogRec :=
  match i.save cwd fs path room with
  | (.err _, _) => [.cacheUnsaved (env.err 1) path]
  | _ => []

/-- src/peer/manager.rs:30-39 `get_info`: without a connection nothing is logged. -/
def getInfoDialLog (env : LogEnv) (m : Build) (dial : Dial) (f : Nat) (peerId infoHash : Bytes) : List LogRec :=
  match dial with
  | .connected net => getInfoLog env m net f peerId infoHash
  | _ => []

/-- src/actors/torrent.rs:156-171 `collect_info`. -/
def collectInfoLog (env : LogEnv) (m : Build) (cwd : Loc) (fs : FS) (dial : Dial) (f : Nat) (peerId infoHash : Bytes) (room : Nat) : List LogRec :=
  match fs.createDirAll ((PathBuf.parse b!"./downloads").base cwd) (PathBuf.parse b!"./downloads").comps with
  | (.ok (), fs1) => fromFileLog env cwd fs1 (cachePath infoHash) ++
    match Info.fromFile cwd fs1 (cachePath infoHash) with
    | .err _ => getInfoDialLog env m dial f peerId infoHash ++
      match getInfo m dial f peerId infoHash with
      | .ok i => saveLog env i cwd fs1 (cachePath infoHash) room
      | _ => []
    | _ => []
  | _ => []

/-- src/torrent/writer.rs:15-27 `write`. -/
def writePieceLog (disk : Disk) (t : Nat) (m : Build) (cwd : Loc) (fs : FS) (piece : Bytes) (idx : Nat) (files : List File) (pieceLength : Nat) :
    List LogRec :=
  match (writePieceFaulty disk t m cwd fs piece idx files pieceLength : Res Unit Unit × FS) with
  | (.ok (), _) => [.pieceWritten idx]
  | _ => []

end RustBit
