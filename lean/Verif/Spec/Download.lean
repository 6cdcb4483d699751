/-
Vocabulary for statements about the history of a connection.
-/
import Verif.Model.Peer
import Verif.Spec.Stream

namespace Spec
open RustBit

/-- Is the peer choking us after the given history: the last choke (id 0) or unchoke (id 1) message
decides, `init` being the state before. -/
def choking (init : Bool) (log : List Ev) : Bool :=
  log.foldl (fun c e => match e with
    | .got m => if m.id = 0 then true else if m.id = 1 then false else c
    | .sent _ => c) init

/-- The messages received, in order, that satisfy `f`. -/
def received (f : Message → Bool) (log : List Ev) : List Message :=
  log.filterMap fun e => match e with
    | .got m => if f m then some m else none
    | .sent _ => none

/-- The byte strings written, in order. -/
def written (log : List Ev) : List Bytes :=
  log.filterMap fun e => match e with
    | .sent b => some b
    | .got _ => none

/-- `Q pre x` holds of every write `x`, `pre` being what happened before it. -/
def EachWrite (Q : List Ev → Bytes → Prop) (log : List Ev) : Prop :=
  ∀ pre x post, log = pre ++ .sent x :: post → Q pre x

/-- The messages that answer a request: block messages, or extension messages with `msg_type` 1. -/
def isAnswer : Downloadable → Message → Bool
  | .info, m => match m.content with
    | .extension e => e.msgType == some 1
    | _ => false
  | .block .., m => decide (m.id = 6 ∨ m.id = 7)

/-- The metadata size last announced by the peer: that of its last extension message that has one. -/
def announcedSize (init : Nat) (log : List Ev) : Nat :=
  log.foldl (fun n e => match e with
    | .got m => match m.content with
      | .extension x => x.metadataSize.getD n
      | _ => n
    | .sent _ => n) init

/-- The number of bytes of piece `i` of a torrent of `total` bytes. -/
def pieceSize (pieceLength i total : Nat) : Nat := min pieceLength (total - i * pieceLength)

/-- The ranges (offset, length) follow each other without gap or overlap from `start` to `stop`; each has
between 1 and 16384 bytes. -/
def Tiles : List (Nat × Nat) → Nat → Nat → Prop
  | [], start, stop => start = stop
  | (o, l) :: t, start, stop => o = start ∧ 0 < l ∧ l ≤ 16384 ∧ Tiles t (o + l) stop

/-! ### Messages -/

/-- A message on the wire: its id and its body. -/
abbrev WireMsg := UInt8 × Bytes

/-- The 32-bit big-endian notation of `n`. -/
def u32 (n : Nat) : Bytes :=
  [UInt8.ofNat (n / 2 ^ 24), UInt8.ofNat (n / 2 ^ 16), UInt8.ofNat (n / 2 ^ 8), UInt8.ofNat n]

/-- A message as sent: length, id, body. -/
def wire (x : WireMsg) : Bytes := u32 (x.2.length + 1) ++ x.1 :: x.2

/-- Block number `i` of a piece. -/
def blockOf (piece : Bytes) (i : Nat) : Bytes := (piece.drop (i * 16384)).take 16384

/-- The message carrying block `i` of a piece (BEP 3: id 7, piece index, offset, data). -/
def blockMsg (idx : Nat) (piece : Bytes) (i : Nat) : WireMsg :=
  (7, u32 idx ++ u32 (i * 16384) ++ blockOf piece i)

end Spec
