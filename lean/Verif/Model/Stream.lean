/-
Model of src/peer/stream.rs: a TCP connection under an arbitrary schedule of the network.
-/
import Verif.Model.Messages

namespace RustBit

/-- State of the connection as seen by one system call. -/
inductive NetKind where
  /-- the connection is open: a call that finds no data times out (`Err`) -/
  | up
  /-- the peer has closed its side: a call that finds no data returns `Ok(0)` -/
  | eof
  /-- the call fails (`Err`) -/
  | fail
  deriving Repr, DecidableEq

/-- What the network does until one system call on the socket returns: the bytes that arrive in the
receive buffer, and the state of the connection. -/
structure NetEv where
  arrive : Bytes
  kind : NetKind
  deriving Repr, DecidableEq

/-- A schedule: what happens at each system call, in order. Every behaviour of the remote peer and of
TCP (segmentation, delays, failures) gives some schedule; theorems quantify over all of them. -/
abbrev Net := Nat → NetEv

/-- A connection: the receive buffer and the number of system calls made so far. Simplification:
the receive buffer is unbounded and `write_all` hands over its whole argument or fails. -/
structure Conn where
  buf : Bytes
  t : Nat
  deriving Repr, DecidableEq

namespace Conn

/-- The next system call: arriving bytes are appended to the receive buffer. -/
def advance (net : Net) (c : Conn) : Conn := ⟨c.buf ++ (net c.t).arrive, c.t + 1⟩

/-- `TcpStream::peek` with a buffer of `n` bytes (src/peer/stream.rs:68-74): the bytes seen, or `none`
for `Err`. -/
def peek (net : Net) (c : Conn) (n : Nat) : Option Bytes × Conn :=
  let c' := c.advance net
  match (net c.t).kind with
  | .fail => (none, c')
  | .up => if c'.buf = [] then (none, c') else (some (c'.buf.take n), c')
  | .eof => (some (c'.buf.take n), c')

/-- `TcpStream::read` with a buffer of `n` bytes (src/peer/stream.rs:20-28): like `peek`, and the bytes
are removed from the receive buffer. -/
def read (net : Net) (c : Conn) (n : Nat) : Option Bytes × Conn :=
  match c.peek net n with
  | (none, c') => (none, c')
  | (some bs, c') => (some bs, { c' with buf := c'.buf.drop n })

/-- `set_read_timeout` (src/peer/stream.rs:76-82): was it successful? -/
def setReadTimeout (net : Net) (c : Conn) : Bool × Conn :=
  (decide ((net c.t).kind ≠ .fail), c.advance net)

/-- `write_all` (src/peer/stream.rs:149, 164-165): was it successful? -/
def writeAll (net : Net) (c : Conn) : Bool × Conn :=
  (decide ((net c.t).kind ≠ .fail), c.advance net)

end Conn

/-- A zero-initialised array of `n` bytes after the bytes `bs` have been stored in it. -/
def padTo (n : Nat) (bs : Bytes) : Bytes := bs ++ List.replicate (n - bs.length) 0

/-- src/peer/stream.rs:85-93 `has_messages`. -/
def hasMessages (net : Net) (c : Conn) : Bool × Conn :=
  match c.peek net 1 with
  | (some bs, c') => (decide (bs.length ≠ 0), c')
  | (none, c') => (false, c')

/-- `.unwrap_or(0)` on the result of `peek`/`read`: the number of bytes. -/
def countOr0 : Option Bytes → Nat
  | some bs => bs.length
  | none => 0

/-- src/peer/stream.rs:95-97 `peek_and_read`: on success, the bytes left in `body`. -/
def peekAndRead (net : Net) (c : Conn) (length : Nat) : Option Bytes × Conn :=
  match c.peek net length with
  | (r1, c1) =>
    if countOr0 r1 = length then
      match c1.read net length with
      | (r2, c2) => if countOr0 r2 = length then (some (r2.getD []), c2) else (none, c2)
    else (none, c1)

/-- src/peer/stream.rs:139-145: up to `k` attempts to read the body (the pauses take no model time). -/
def bodyLoop (net : Net) : Nat → Conn → Nat → Option Bytes × Conn
  | 0, c, _ => (none, c)
  | k + 1, c, length =>
    match peekAndRead net c length with
    | (some body, c') => (some body, c')
    | (none, c') => bodyLoop net k c' length

/-- src/peer/stream.rs:120-146: reading a message that is not a handshake. -/
def readFramed (net : Net) (c : Conn) : Option (Bytes × UInt8 × Nat) × Conn :=
  match c.read net 4 with
  | (none, c1) => (none, c1)
  | (some b4, c1) =>
    let length := ofBe (padTo 4 b4)
    match c1.read net 1 with
    | (none, c2) => (none, c2)
    | (some b1, c2) =>
      let id := (padTo 1 b1).headD 0
      if length = 0 then (some ([], id, 0), c2)
      else match bodyLoop net 39 c2 (length - 1) with
        | (some body, c3) => (some (body, id, length - 1), c3)
        | (none, c3) => (none, c3)

/-- src/peer/stream.rs:100-146 `read_stream`: body, id and length. -/
def readStream (net : Net) (c : Conn) : Option (Bytes × UInt8 × Nat) × Conn :=
  match c.setReadTimeout net with
  | (false, c0) => (none, c0)
  | (true, c0) =>
    match hasMessages net c0 with
    | (false, c1) => (none, c1)
    | (true, c1) =>
      match c1.peek net 68 with
      | (some p, c2) =>
        if p.length = 68 ∧ p.head? = some 0x13 then
          match c2.read net 68 with
          | (none, c3) => (none, c3)
          | (some bs, c3) => (some (padTo 68 bs, 19, 68), c3)
        else readFramed net c2
      | (none, c2) => readFramed net c2

end RustBit
