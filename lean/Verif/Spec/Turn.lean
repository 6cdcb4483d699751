/-
Vocabulary for the order in which pieces are asked for.
-/
import Verif.Model.App

namespace Spec
open RustBit

/-- The pieces that are asked for in a step: those of the requests that are at the end of the queue afterwards and were not there before. -/
def askedNow (s t : Sys) : List Nat := (t.queue.drop s.queue.length).map Request.idx

/-- The pieces that a torrent learns, in a step, to have failed. -/
def failedNow (s t : Sys) : List Nat := (t.handled.drop s.handled.length).filterMap fun m => match m with
  | .failed _ i => some i
  | _ => none

/-- The pieces that torrent `k` has asked for up to the `i`-th state of a run, in order. -/
def askedUpTo (run : Nat → App) (k : Nat) : Nat → List Nat
  | 0 => []
  | i + 1 => askedUpTo run k i ++ match (run i).proc.slots[k]?, (run (i + 1)).proc.slots[k]? with
    | some s, some t => askedNow s.sys t.sys
    | _, _ => []

/-- The pieces that torrent `k` has learned to have failed up to the `i`-th state of a run, in order. -/
def failedUpTo (run : Nat → App) (k : Nat) : Nat → List Nat
  | 0 => []
  | i + 1 => failedUpTo run k i ++ match (run i).proc.slots[k]?, (run (i + 1)).proc.slots[k]? with
    | some s, some t => failedNow s.sys t.sys
    | _, _ => []

end Spec
