/-
Model of src/common/mock_stream.rs and of the three kinds of src/peer/stream.rs `StreamInterface`.
-/
import Verif.Model.Stream

namespace RustBit

/-- `std::io::Cursor<Vec<u8>>` (src/common/mock_stream.rs:8-9). -/
structure Cursor where
  data : Bytes
  pos : Nat
  deriving Repr, DecidableEq

namespace Cursor

/-- src/common/mock_stream.rs:18-20 `new_cursor`. -/
def new : Cursor := ⟨[], 0⟩

/-- `Read for Cursor` with a buffer of `n` bytes: what lies behind the position, as far as it fits. -/
def read (c : Cursor) (n : Nat) : Bytes × Cursor :=
  let bs := (c.data.drop c.pos).take n
  (bs, { c with pos := c.pos + bs.length })

/-- `Write for Cursor<Vec<u8>>`: the vector is filled with zeros up to the position, the bytes replace
what lies there, and the position moves behind them. -/
def write (c : Cursor) (bs : Bytes) : Nat × Cursor :=
  (bs.length, ⟨(padTo c.pos c.data).take c.pos ++ bs ++ c.data.drop (c.pos + bs.length), c.pos + bs.length⟩)

end Cursor

/-- src/common/mock_stream.rs:6-10 `struct MockStream`. -/
structure MockStream where
  reader : Cursor
  writer : Cursor
  deriving Repr, DecidableEq

namespace MockStream

/-- src/common/mock_stream.rs:12-16, 23-29 `MockStream::new`, `default`. -/
def new : MockStream := ⟨.new, .new⟩

/-- src/common/mock_stream.rs:31-35 `peek_bytes_written`. -/
def peekBytesWritten (s : MockStream) : Bytes := s.writer.data

/-- src/common/mock_stream.rs:37-41 `peek_bytes_to_read`. -/
def peekBytesToRead (s : MockStream) : Nat := s.reader.data.length

/-- src/common/mock_stream.rs:43-50 `pop_bytes_written`. -/
def popBytesWritten (s : MockStream) : Bytes × MockStream := (s.writer.data, { s with writer := ⟨[], 0⟩ })

/-- src/common/mock_stream.rs:52-60 `push_bytes_to_read`. -/
def pushBytesToRead (s : MockStream) (bs : Bytes) : MockStream :=
  let r := if s.reader.pos = s.reader.data.length then Cursor.new else s.reader
  { s with reader := { r with data := r.data ++ bs } }

/-- src/common/mock_stream.rs:63-67 `read`. -/
def read (s : MockStream) (n : Nat) : Bytes × MockStream :=
  match s.reader.read n with
  | (bs, r) => (bs, { s with reader := r })

/-- src/common/mock_stream.rs:69-77 `write`: the number of bytes taken. -/
def write (s : MockStream) (bs : Bytes) : Nat × MockStream :=
  match s.writer.write bs with
  | (n, w) => (n, { s with writer := w })

/-- src/common/mock_stream.rs:79-86 `peek`. -/
def peek (s : MockStream) (n : Nat) : Bytes × MockStream :=
  match s.reader.read n with
  | (bs, r) => (bs, { s with reader := { r with pos := s.reader.pos } })

end MockStream

/-- src/common/mock_stream.rs:121-126 `struct FailingMockStream` (without the text of the error). -/
structure FailingMockStream where
  repeatCount : Int
  deriving Repr, DecidableEq

/-- src/common/mock_stream.rs:142-151 `error`, which is also `read` and `write` (154-168): `none` for
`Err`, else the number of bytes. -/
def FailingMockStream.error (s : FailingMockStream) : Option Nat × FailingMockStream :=
  if s.repeatCount = 0 then (some 0, s)
  else if s.repeatCount > 0 then (none, ⟨s.repeatCount - 1⟩) else (none, s)

/-- src/peer/stream.rs:11-18 `enum StreamInterface`. -/
inductive StreamInterface where
  | mocked (s : MockStream)
  | tcp (net : Net) (c : Conn)
  | nothing

namespace StreamInterface

/-- src/peer/stream.rs:20-28 `read`. -/
def read : StreamInterface → Nat → Option Bytes × StreamInterface
  | .mocked s, n => match s.read n with
    | (bs, s') => (some bs, .mocked s')
  | .tcp net c, n => match c.read net n with
    | (r, c') => (r, .tcp net c')
  | .nothing, _ => (some [], .nothing)

/-- src/peer/stream.rs:68-74 `peek`. -/
def peek : StreamInterface → Nat → Option Bytes × StreamInterface
  | .mocked s, n => match s.peek n with
    | (bs, s') => (some bs, .mocked s')
  | .tcp net c, n => match c.peek net n with
    | (r, c') => (r, .tcp net c')
  | .nothing, _ => (some [], .nothing)

/-- src/peer/stream.rs:76-82 `set_read_timeout`. -/
def setReadTimeout : StreamInterface → Bool × StreamInterface
  | .mocked s => (true, .mocked s)
  | .tcp net c => match c.setReadTimeout net with
    | (r, c') => (r, .tcp net c')
  | .nothing => (true, .nothing)

/-- `Write::write_all` over `write` (src/peer/stream.rs:30-37): it calls `write` until everything is
taken, and fails when nothing is. A mocked stream takes everything at once. -/
def writeAll : StreamInterface → Bytes → Bool × StreamInterface
  | .mocked s, bs => if bs = [] then (true, .mocked s) else match s.write bs with
    | (n, s') => (decide (n = bs.length), .mocked s')
  | .tcp net c, _ => match c.writeAll net with
    | (r, c') => (r, .tcp net c')
  | .nothing, bs => (decide (bs = []), .nothing)

/-- src/peer/stream.rs:85-93 `has_messages`. -/
def hasMessages (s : StreamInterface) : Bool × StreamInterface :=
  match s.peek 1 with
  | (some bs, s') => (decide (bs.length ≠ 0), s')
  | (none, s') => (false, s')

/-- src/peer/stream.rs:95-97 `peek_and_read`: on success, the bytes left in `body`. -/
def peekAndRead (s : StreamInterface) (length : Nat) : Option Bytes × StreamInterface :=
  match s.peek length with
  | (r1, s1) =>
    if countOr0 r1 = length then
      match s1.read length with
      | (r2, s2) => if countOr0 r2 = length then (some (r2.getD []), s2) else (none, s2)
    else (none, s1)

/-- src/peer/stream.rs:139-145: up to `k` attempts to read the body. -/
def bodyLoop : Nat → StreamInterface → Nat → Option Bytes × StreamInterface
  | 0, s, _ => (none, s)
  | k + 1, s, length =>
    match peekAndRead s length with
    | (some body, s') => (some body, s')
    | (none, s') => bodyLoop k s' length

/-- src/peer/stream.rs:120-146: reading a message that is not a handshake. -/
def readFramed (s : StreamInterface) : Option (Bytes × UInt8 × Nat) × StreamInterface :=
  match s.read 4 with
  | (none, s1) => (none, s1)
  | (some b4, s1) =>
    let length := ofBe (padTo 4 b4)
    match s1.read 1 with
    | (none, s2) => (none, s2)
    | (some b1, s2) =>
      let id := (padTo 1 b1).headD 0
      if length = 0 then (some ([], id, 0), s2)
      else match bodyLoop 39 s2 (length - 1) with
        | (some body, s3) => (some (body, id, length - 1), s3)
        | (none, s3) => (none, s3)

/-- src/peer/stream.rs:100-146 `read_stream`, on any kind of stream. -/
def readStream (s : StreamInterface) : Option (Bytes × UInt8 × Nat) × StreamInterface :=
  match s.setReadTimeout with
  | (false, s0) => (none, s0)
  | (true, s0) =>
    match hasMessages s0 with
    | (false, s1) => (none, s1)
    | (true, s1) =>
      match s1.peek 68 with
      | (some p, s2) =>
        if p.length = 68 ∧ p.head? = some 0x13 then
          match s2.read 68 with
          | (none, s3) => (none, s3)
          | (some bs, s3) => (some (padTo 68 bs, 19, 68), s3)
        else readFramed s2
      | (none, s2) => readFramed s2

/-- src/peer/stream.rs:148-153 `write_stream`: the outcome is only logged. -/
def writeStream (s : StreamInterface) (bs : Bytes) : StreamInterface := (s.writeAll bs).2

/-- src/peer/stream.rs:155-167 `send_metadata_handshake_request`, on any kind of stream. -/
def sendMetadataHandshakeRequest (s : StreamInterface) : Bool × StreamInterface :=
  s.writeAll extensionHandshakeBytes

end StreamInterface

end RustBit
