/-
Model of src/peer/piece_pool.rs and src/actors/{torrent,connection,writer}.rs: one torrent, its five download workers and its
writer, as a transition system. Every message a mailbox holds is handled in the order of arrival; everything else may be
interleaved in any way.
-/
import Verif.Model.Cache

namespace RustBit

/-! ### piece_pool.rs -/

/-- src/peer/piece_pool.rs:7 `PiecePool`. The mutex is never poisoned: it is only held during the queue operations. -/
abbrev PiecePool := List Nat

namespace PiecePool

/-- src/peer/piece_pool.rs:10-18 `new`: the loop pushing `i`, `i + 1`, ... (`k` of them). -/
def fill (i : Nat) : Nat → PiecePool → PiecePool
  | 0, q => q
  | k + 1, q => fill (i + 1) k (q ++ [i])

/-- src/peer/piece_pool.rs:10-18 `new`. -/
def new (count : Nat) : PiecePool := fill 0 count []

/-- src/peer/piece_pool.rs:20-25 `pop`. -/
def pop : PiecePool → Option Nat × PiecePool
  | [] => (none, [])
  | i :: q => (some i, q)

/-- src/peer/piece_pool.rs:27-31 `insert`. -/
def insert (q : PiecePool) (i : Nat) : PiecePool := q ++ [i]

end PiecePool

/-! ### torrent.rs: the peer list -/

/-- src/actors/torrent.rs:174-178 `struct Peer`. The counters do not overflow in practice and are plain numbers. -/
structure TPeer where
  endpoint : Bytes
  downloaded : Nat
  failed : Nat
  deriving Repr, DecidableEq

namespace TPeer

/-- src/actors/torrent.rs:181-187 `Peer::new`. -/
def new (endpoint : Bytes) : TPeer := ⟨endpoint, 0, 0⟩

/-- src/actors/torrent.rs:189-195 `update_failed`. -/
def updateFailed (pool : List TPeer) (endpoint : Bytes) : List TPeer :=
  pool.map fun p => if p.endpoint = endpoint then { p with failed := p.failed + 1 } else p

/-- src/actors/torrent.rs:197-203 `update_sucess`. -/
def updateSuccess (pool : List TPeer) (endpoint : Bytes) : List TPeer :=
  pool.map fun p => if p.endpoint = endpoint then { p with downloaded := p.downloaded + 1 } else p

/-- src/actors/torrent.rs:205-221 `find_suitable_peer` after the shuffle. -/
def findSuitablePeer {ε : Type} (shuffled : List TPeer) : Res ε Bytes :=
  match shuffled.find? (fun p => p.failed < 2) with
  | some p => .ok p.endpoint
  | none => match shuffled.find? (fun p => p.failed < 4) with
    | some p => .ok p.endpoint
    | none => match shuffled with
      | p :: _ => .ok p.endpoint
      | [] => .panic

end TPeer

/-! ### Messages (src/actors/messages.rs) -/

/-- src/actors/messages.rs:52-59 `PieceRequested`. -/
structure Request where
  endpoint : Bytes
  info : Info
  idx : Nat
  deriving Repr, DecidableEq

/-- src/actors/messages.rs:40-48 `PieceReady`. -/
structure Ready where
  piece : Bytes
  files : List File
  idx : Nat
  pieceLength : Nat
  deriving Repr, DecidableEq

/-- src/actors/messages.rs:19-38: the messages a torrent receives. -/
inductive Mail where
  | found (peer : PeerEndpoint)
  | success (endpoint piece : Bytes) (idx : Nat)
  | failed (endpoint : Bytes) (idx : Nat)
  deriving Repr, DecidableEq

/-! ### torrent.rs: the handlers -/

/-- src/actors/torrent.rs:18-26 `struct TorrentActor`. -/
structure Torrent where
  info : Option Info
  infoHash : Bytes
  peers : List TPeer
  pool : Option PiecePool
  initiated : Bool
  deriving Repr, DecidableEq

/-- src/actors/torrent.rs:33-41: the initial state. -/
def Torrent.new (infoHash : Bytes) : Torrent := ⟨none, infoHash, [], none, false⟩

/-- What a handler does: how it ends, the state it leaves, the messages it sends to the workers and to the writer. -/
structure Outcome where
  res : Res Unit Unit
  torrent : Torrent
  requests : List Request
  ready : List Ready

/-- src/actors/torrent.rs:70-78 and 98-106: take a piece from the pool, if there is one, and request it. -/
def Torrent.requestNext (t : Torrent) (info : Info) (endpoint : Bytes) (pool : PiecePool) : Torrent × List Request :=
  match pool.pop with
  | (some idx, pool) => ({ t with pool := some pool }, [⟨endpoint, info, idx⟩])
  | (none, pool) => ({ t with pool := some pool }, [])

/-- src/actors/torrent.rs:57-81 `Handler<PieceDownloadSuccessfull>`. -/
def Torrent.onSuccess (t : Torrent) (endpoint piece : Bytes) (idx : Nat) : Outcome :=
  match t.info with
  | none => ⟨.panic, t, [], []⟩
  | some info =>
    match info.getFiles with
    | .ok files =>
      let ready := [⟨piece, files, idx, info.pieceLength⟩]
      let t := { t with peers := TPeer.updateSuccess t.peers endpoint }
      match t.pool with
      | none => ⟨.panic, t, [], ready⟩
      | some pool => match t.requestNext info endpoint pool with
        | (t, requests) => ⟨.ok (), t, requests, ready⟩
    | _ => ⟨.panic, t, [], []⟩

/-- src/actors/torrent.rs:87-109 `Handler<PieceDownloadFailed>`; `shuffled` is the peer list as shuffled by `find_suitable_peer`. (The
metadata is unwrapped last, and only if there is a piece; nothing is sent before.) -/
def Torrent.onFailed (t : Torrent) (shuffled : List TPeer) (endpoint : Bytes) (idx : Nat) : Outcome :=
  match t.pool with
  | none => ⟨.panic, t, [], []⟩
  | some pool =>
    let t := { t with pool := some (pool.insert idx), peers := TPeer.updateFailed t.peers endpoint }
    match (TPeer.findSuitablePeer shuffled : Res Unit Bytes) with
    | .ok next => match t.info with
      | none => ⟨.panic, t, [], []⟩
      | some info => match t.requestNext info next (pool.insert idx) with
        | (t, requests) => ⟨.ok (), t, requests, []⟩
    | _ => ⟨.panic, t, [], []⟩

/-- src/actors/torrent.rs:133-147: the loop issuing the first requests, one element of the list for each round's shuffle. -/
def startRequests (info : Info) : List (List TPeer) → PiecePool → Res Unit Unit × PiecePool × List Request
  | [], pool => (.ok (), pool, [])
  | shuffled :: rest, pool =>
    match (TPeer.findSuitablePeer shuffled : Res Unit Bytes) with
    | .ok endpoint => match pool.pop with
      | (some idx, pool) => match startRequests info rest pool with
        | (r, pool, requests) => (r, pool, ⟨endpoint, info, idx⟩ :: requests)
      | (none, pool) => startRequests info rest pool
    | _ => (.panic, pool, [])

/-- src/actors/torrent.rs:121-123: the number of pieces. -/
def pieceTotal {ε : Type} (m : Build) (info : Info) : Res ε Nat := do
  let n ← info.getTotalLength m
  stepByLen n info.pieceLength

/-- src/actors/torrent.rs:116: the peer list with the new peer. -/
def Torrent.addPeer (t : Torrent) (p : PeerEndpoint) : Torrent := { t with peers := t.peers ++ [TPeer.new p.endpoint] }

/-- src/actors/torrent.rs:119-130: the part of `Handler<PeerFound>` for a torrent without metadata, given what `collect_info`
returned. -/
def Torrent.onCollected (m : Build) (t : Torrent) (collected : Res Unit (Option Info)) : Outcome :=
  match collected with
  | .ok (some info) => match (pieceTotal m info : Res Unit Nat) with
    | .ok n => ⟨.ok (), { t with pool := some (PiecePool.new n), info := some info }, [], []⟩
    | .err e => ⟨.err e, t, [], []⟩
    | .panic => ⟨.panic, t, [], []⟩
    | .hang => ⟨.hang, t, [], []⟩
  | .ok none => ⟨.ok (), t, [], []⟩
  | .err e => ⟨.err e, t, [], []⟩
  | .panic => ⟨.panic, t, [], []⟩
  | .hang => ⟨.hang, t, [], []⟩

/-- src/actors/torrent.rs:131-149: the part of `Handler<PeerFound>` for a torrent with metadata. -/
def Torrent.onReady (t : Torrent) (info : Info) (shuffles : List (List TPeer)) : Outcome :=
  if t.peers.length > 10 && !t.initiated then
    match t.pool with
    | none => ⟨.panic, t, [], []⟩
    | some pool => match startRequests info shuffles pool with
      | (r, pool, requests) => ⟨r, { t with pool := some pool, initiated := !requests.isEmpty }, requests, []⟩
  else ⟨.ok (), t, [], []⟩

/-! ### The system -/

/-- A torrent actor with its workers and its writer. -/
structure Sys where
  /-- The torrent actor. -/
  torrent : Torrent
  /-- A handler of the torrent actor panicked, which ends the actor. -/
  down : Bool
  /-- The mailbox of the torrent actor. -/
  mail : List Mail
  /-- Requests not yet taken by a worker. -/
  queue : List Request
  /-- Requests being worked on. -/
  busy : List Request
  /-- Number of worker threads that have not died. -/
  workers : Nat
  /-- The mailbox of the writer. -/
  ready : List Ready
  /-- The writer thread has not died. -/
  writerUp : Bool
  /-- The disk. -/
  fs : FS
  /-- History: messages handled by the torrent actor, in order. -/
  handled : List Mail
  /-- History: messages taken by the writer, in order. -/
  written : List Ready
  /-- History: pieces whose worker died. -/
  lost : List Nat

/-- src/actors/torrent.rs:29-42 `TorrentActor::new`: five workers, one writer. -/
def Sys.init (infoHash : Bytes) (fs : FS) : Sys :=
  { torrent := Torrent.new infoHash, down := false, mail := [], queue := [], busy := [], workers := 5, ready := [],
    writerUp := true, fs, handled := [], written := [], lost := [] }

/-- The effect of a handler on the system. -/
def Sys.after (s : Sys) (msg : Mail) (rest : List Mail) (h : Outcome) : Sys :=
  { s with
    mail := rest
    handled := s.handled ++ [msg]
    torrent := h.torrent
    down := match h.res with | .ok () => false | _ => true
    queue := s.queue ++ h.requests
    ready := s.ready ++ h.ready }

/-- What the program and the world are: the build, SHA-1, the working directory. -/
structure World where
  build : Build
  sha : Bytes → Bytes
  cwd : Loc

/-- One step of the system.

* `announce`: a tracker actor reports a peer (src/actors/tracker.rs:33-37); peers come from compact peer strings.
* `take`: an idle worker takes the next request (`SyncArbiter`).
* `finish`: a worker's `download` (src/actors/connection.rs:24-42) returns a piece or an error, which is reported, or panics, which
  ends the thread. A download that does not end has no such step.
* `success`, `failed`, `collect`, `found`: the torrent actor handles the first message of its mailbox. (`collect` also waits for the
  metadata; if this does not end there is no step and the actor stays where it is.)
* `write`: the writer handles the first message of its mailbox (src/actors/writer.rs:21-25); a panic ends the thread. -/
inductive Step (w : World) : Sys → Sys → Prop
  | announce (s : Sys) (bytes : Bytes) (p : PeerEndpoint) (hp : p ∈ PeerEndpoint.fromBytes bytes) :
      Step w s { s with mail := s.mail ++ [.found p] }
  | take (s : Sys) (r : Request) (queue : List Request) (hq : s.queue = r :: queue) (hb : s.busy.length < s.workers) :
      Step w s { s with queue, busy := s.busy ++ [r] }
  | finishOk (s : Sys) (pre post : List Request) (r : Request) (hb : s.busy = pre ++ r :: post)
      (tcp : List Nat × Nat → Option Net) (f : Nat) (peerId piece : Bytes)
      (h : downloadPiece w.sha w.build (dialOf r.endpoint tcp) f peerId r.info r.idx = .ok piece) :
      Step w s { s with busy := pre ++ post, mail := s.mail ++ [.success r.endpoint piece r.idx] }
  | finishErr (s : Sys) (pre post : List Request) (r : Request) (hb : s.busy = pre ++ r :: post)
      (tcp : List Nat × Nat → Option Net) (f : Nat) (peerId : Bytes) (e : PeerManagerError)
      (h : downloadPiece w.sha w.build (dialOf r.endpoint tcp) f peerId r.info r.idx = .err e) :
      Step w s { s with busy := pre ++ post, mail := s.mail ++ [.failed r.endpoint r.idx] }
  | finishPanic (s : Sys) (pre post : List Request) (r : Request) (hb : s.busy = pre ++ r :: post)
      (tcp : List Nat × Nat → Option Net) (f : Nat) (peerId : Bytes)
      (h : downloadPiece w.sha w.build (dialOf r.endpoint tcp) f peerId r.info r.idx = .panic) :
      Step w s { s with busy := pre ++ post, workers := s.workers - 1, lost := s.lost ++ [r.idx] }
  | success (s : Sys) (endpoint piece : Bytes) (idx : Nat) (rest : List Mail) (hd : s.down = false)
      (hm : s.mail = .success endpoint piece idx :: rest) :
      Step w s (s.after (.success endpoint piece idx) rest (s.torrent.onSuccess endpoint piece idx))
  | failed (s : Sys) (endpoint : Bytes) (idx : Nat) (rest : List Mail) (hd : s.down = false)
      (hm : s.mail = .failed endpoint idx :: rest)
      (shuffled : List TPeer) (hs : shuffled.Perm (TPeer.updateFailed s.torrent.peers endpoint)) :
      Step w s (s.after (.failed endpoint idx) rest (s.torrent.onFailed shuffled endpoint idx))
  | collect (s : Sys) (p : PeerEndpoint) (rest : List Mail) (hd : s.down = false) (hm : s.mail = .found p :: rest)
      (hi : s.torrent.info = none) (tcp : List Nat × Nat → Option Net) (f : Nat) (peerId : Bytes) (room : Nat)
      (collected : Res Unit (Option Info)) (fs : FS) (hh : collected ≠ .hang)
      (hc : collectInfo w.build w.cwd s.fs (dialOf p.endpoint tcp) f peerId s.torrent.infoHash room = (collected, fs)) :
      Step w s { s.after (.found p) rest ((s.torrent.addPeer p).onCollected w.build collected) with fs }
  | found (s : Sys) (p : PeerEndpoint) (rest : List Mail) (hd : s.down = false) (hm : s.mail = .found p :: rest)
      (info : Info) (hi : s.torrent.info = some info) (shuffles : List (List TPeer)) (hn : shuffles.length = 5)
      (hs : ∀ l ∈ shuffles, l.Perm (s.torrent.addPeer p).peers) :
      Step w s (s.after (.found p) rest ((s.torrent.addPeer p).onReady info shuffles))
  | write (s : Sys) (r : Ready) (ready : List Ready) (hu : s.writerUp = true) (hr : s.ready = r :: ready)
      (res : Res Unit Unit) (fs : FS) (h : writePiece w.build w.cwd s.fs r.piece r.idx r.files r.pieceLength = (res, fs)) :
      Step w s { s with ready, written := s.written ++ [r], fs, writerUp := match res with | .ok () => true | _ => false }

/-- Any number of steps. -/
inductive Steps (w : World) : Sys → Sys → Prop
  | refl (s : Sys) : Steps w s s
  | tail {s t u : Sys} : Steps w s t → Step w t u → Steps w s u

/-- The states a torrent can get into, whatever was on disk at the start. -/
def Reachable (w : World) (s : Sys) : Prop := ∃ infoHash fs, Steps w (Sys.init infoHash fs) s

/-- The states a torrent can get into among others with which it shares the disk: whatever was on disk at the start, and whatever is done to the disk
by others at any time (`disk`), even while the writer is in the middle of a piece, which may then end in either way (`wrote`). -/
inductive Among (w : World) : Sys → Prop
  | init (infoHash : Bytes) (fs : FS) : Among w (Sys.init infoHash fs)
  | step {s t : Sys} (h : Among w s) (hst : Step w s t) : Among w t
  | disk {s : Sys} (h : Among w s) (fs : FS) : Among w { s with fs }
  | wrote {s : Sys} (h : Among w s) (r : Ready) (ready : List Ready) (hu : s.writerUp = true) (hr : s.ready = r :: ready) (fs : FS) (up : Bool) :
      Among w { s with ready, written := s.written ++ [r], writerUp := up, fs }

end RustBit
