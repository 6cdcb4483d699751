/-
Waiting: how long the calls of src/peer/stream.rs and of what is built on it wait for the network and sleep, in milliseconds. Computing takes no
time here. The functions follow `Model/Stream.lean` and `Model/Peer.lean` call by call and use their results.
-/
import Verif.Model.Peer

namespace RustBit

/-- How long the network takes at each system call until something happens (bytes, the end of the stream, an error). -/
abbrev Waits := Nat → Nat

/-- A `peek` or `read` returns at once when there are bytes in the receive buffer, and otherwise when something happens, at the latest after the
read timeout of 100 ms (src/peer/stream.rs:101-103). -/
def Conn.wait (w : Waits) (c : Conn) : Nat := if c.buf = [] then min (w c.t) 100 else 0

/-- src/peer/stream.rs:95-97 `peek_and_read`: `&&` makes the second call only if the first saw enough. -/
def peekAndReadTime (net : Net) (w : Waits) (c : Conn) (length : Nat) : Nat :=
  c.wait w + if countOr0 (c.peek net length).1 = length then (c.peek net length).2.wait w else 0

/-- src/peer/stream.rs:139-145, `k` attempts left: after a failed attempt number `retry` the thread sleeps for `5 * retry` ms. -/
def bodyLoopTime (net : Net) (w : Waits) : Nat → Conn → Nat → Nat
  | 0, _, _ => 0
  | k + 1, c, length =>
    let retry := 39 - k
    match peekAndRead net c length with
    | (some _, _) => peekAndReadTime net w c length
    | (none, c') => peekAndReadTime net w c length + 5 * retry + bodyLoopTime net w k c' length

/-- src/peer/stream.rs:120-146. -/
def readFramedTime (net : Net) (w : Waits) (c : Conn) : Nat :=
  c.wait w + match c.read net 4 with
  | (none, _) => 0
  | (some b4, c1) =>
    c1.wait w + match c1.read net 1 with
    | (none, _) => 0
    | (some _, c2) => if ofBe (padTo 4 b4) = 0 then 0 else bodyLoopTime net w 39 c2 (ofBe (padTo 4 b4) - 1)

/-- src/peer/stream.rs:100-146 `read_stream`. -/
def readStreamTime (net : Net) (w : Waits) (c : Conn) : Nat :=
  match c.setReadTimeout net with
  | (false, _) => 0
  | (true, c0) =>
    c0.wait w + match hasMessages net c0 with
    | (false, _) => 0
    | (true, c1) =>
      c1.wait w + match c1.peek net 68 with
      | (some p, c2) => if p.length = 68 ∧ p.head? = some 0x13 then c2.wait w else readFramedTime net w c2
      | (none, c2) => readFramedTime net w c2

/-- src/peer/manager.rs:100-110. -/
def readyLoopTime (net : Net) (w : Waits) : Nat → Peer → Nat
  | 0, _ => 0
  | k + 1, p => readStreamTime net w p.conn + match readAndApply net p with
    | (.ok (), p) => if p.isReady then 0 else readyLoopTime net w k p
    | _ => 0

/-- src/peer/manager.rs:85-111 `init_peer`. Writing does not wait (see `Conn`). -/
def initPeerTime (net : Net) (w : Waits) (p : Peer) : Nat :=
  let p := p.sendMessage net (newHandshake p.infoHash p.id)
  readStreamTime net w p.conn + match readAndApply net p with
  | (.ok (), p) =>
    if !p.active then 0
    else match (p.sendMessage net newInterested).sendMetadataHandshakeRequest net with
      | (false, _) => 0
      | (true, p) => readyLoopTime net w 10 p
  | _ => 0

/-- src/peer/download/mod.rs:58-87 `execute`: the first `f` iterations. -/
def execRunTime (m : Build) (net : Net) (w : Waits) (d : Downloadable) : Nat → DState → Nat
  | 0, _ => 0
  | f + 1, s => readStreamTime net w s.peer.conn + match execStep m net d s with
    | .again s' => execRunTime m net w d f s'
    | .done _ _ => 0

/-- src/peer/manager.rs:31, src/peer/stream.rs:55-66: connecting waits at most a second. -/
def connectTime (w : Nat) : Nat := min w 1000

/-- src/peer/manager.rs:30-83 `get_info` and `download`, from connecting up to the first `f` iterations of the loop; `d` says what is fetched. -/
def attemptTime (m : Build) (net : Net) (w0 : Nat) (w : Waits) (d : Downloadable) (f : Nat) (p : Peer) : Nat :=
  connectTime w0 + (initPeerTime net w p + match initPeer net p with
    | (.ok (), p) => match (d.capacity m p : Res DownloadableError Nat) with
      | .ok cap => execRunTime m net w d f ⟨p, ⟨[], cap, 0⟩, 0⟩
      | _ => 0
    | _ => 0)

end RustBit
