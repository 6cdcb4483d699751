/-
Vocabulary for what a torrent takes altogether: attempts, bytes sent, time.
-/
import Verif.Spec.Fair
import Verif.Spec.Conversation

namespace Spec
open RustBit

/-- The attempts to get a piece that the workers of torrent `k` have begun up to the `i`-th state of a run, in order. A worker that begins puts its request at the
end of those being worked on. -/
def begun (run : Nat → App) (k : Nat) : Nat → List Request
  | 0 => []
  | i + 1 => begun run k i ++ match (run i).proc.slots[k]?, (run (i + 1)).proc.slots[k]? with
    | some s, some t => t.sys.busy.drop s.sys.busy.length
    | _, _ => []

/-- The addresses named by some messages, in order. -/
def namedIn (log : List Mail) : List Bytes :=
  log.filterMap fun m => match m with
    | .found p => some p.endpoint
    | _ => none

/-- The addresses at which torrent `k` has asked for the metadata up to the `i`-th state of a run: those of the peers it has looked at while it had none. -/
def askedForMetadata (run : Nat → App) (k : Nat) : Nat → List Bytes
  | 0 => []
  | i + 1 => askedForMetadata run k i ++ match (run i).proc.slots[k]?, (run (i + 1)).proc.slots[k]? with
    | some s, some t => if s.sys.torrent.info = none then namedIn (t.sys.handled.drop s.sys.handled.length) else []
    | _, _ => []

/-- Whom an attempt meets: how the network behaves towards it, how long it goes on before it is looked at, the identifier it uses. -/
structure Meets where
  net : Net
  fuel : Nat
  peerId : Bytes
  twenty : peerId.length = 20

/-- The bytes that some attempts send, the `i`-th of them meeting `x i`. -/
def bytesSent (w : World) (x : Nat → Meets) : List Request → Nat
  | [] => 0
  | r :: l => (written (downloadRun w.sha w.build (x l.length).net (x l.length).fuel (x l.length).peerId r.info r.idx).2.log).flatten.length + bytesSent w x l

end Spec
