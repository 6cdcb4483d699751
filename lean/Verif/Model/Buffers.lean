/-
What the client reserves and keeps for a peer: the buffer of `read_stream`, the state of the peer and the messages of the download.
-/
import Verif.Model.Peer

namespace RustBit

/-- src/peer/stream.rs:120-138: the size of the buffer `vec![0; length]` that is made for the body of a message, before any of it is
read; 0 if none is made. -/
def framedBuffer (net : Net) (c : Conn) : Nat :=
  match c.read net 4 with
  | (none, _) => 0
  | (some b4, c1) =>
    match c1.read net 1 with
    | (none, _) => 0
    | (some _, _) => ofBe (padTo 4 b4) - 1

/-- src/peer/stream.rs:100-146: the size of the buffer `read_stream` makes (line 117 for a handshake). -/
def readBuffer (net : Net) (c : Conn) : Nat :=
  match c.setReadTimeout net with
  | (false, _) => 0
  | (true, c0) =>
    match hasMessages net c0 with
    | (false, _) => 0
    | (true, c1) =>
      match c1.peek net 68 with
      | (some p, c2) => if p.length = 68 ∧ p.head? = some 0x13 then 68 else framedBuffer net c2
      | (none, c2) => framedBuffer net c2

/-- src/messages/extension.rs:15, src/peer/mod.rs:24: an extension map, in units: one for every entry and one for every byte of a name. -/
def extUnits (l : List (Bytes × UInt8)) : Nat := (l.map fun e => e.1.length + 1).sum

/-- src/messages/mod.rs:27-31: what a message takes, in units: one for the message and one for every byte. -/
def Message.units (m : Message) : Nat :=
  match m.content with
  | .request r => r.blockData.length + 1
  | .extension e => e.data.length + extUnits e.extensions + 1
  | .bitfield b => b.length + 1
  | .handshake h => h.protocolIdentifier.length + h.reservedBytes.length + h.infoHash.length + h.peerId.length + 1
  | _ => 1

/-- src/peer/mod.rs:18-27: what the state of a peer takes beyond a constant: the bits of the bitfield are one byte each. -/
def Peer.units (p : Peer) : Nat := p.bitfield.length + extUnits p.extensions

/-- src/peer/download/mod.rs:58-87: what is kept while downloading. The messages count twice: their content is copied when it is put together
(src/peer/buffer.rs:51-56). -/
def DState.units (s : DState) : Nat := s.peer.units + 2 * (s.buf.buffer.map Message.units).sum

end RustBit
