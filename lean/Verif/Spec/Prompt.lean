/-
Vocabulary for what happens between a request and the start of a download in every run of the program.
-/
import Verif.Spec.Fair
import Verif.Spec.App

namespace Spec
open RustBit

/-- Nothing is left lying about between the request and the torrent:
* a torrent in the mailbox of the actor that passes torrents on to the trackers is followed by one being passed on;
* a torrent in the mailbox of a tracker is followed by the start of a lookup, or by the end of the tracker's actor;
* a message that has been sent to a torrent is followed by one getting into a mailbox.
Nothing is said about the lookups: they may take for ever. -/
structure Prompt (run : Nat → App) : Prop where
  passes : ∀ i, (run i).trackers.mail ≠ [] → ∃ j, i ≤ j ∧ (run j).trackers.passed ≠ (run i).trackers.passed
  asks : ∀ (i m : Nat) (t : TrackerSys), (run i).trackers.trackers[m]? = some t → t.mail ≠ [] →
    ∃ (j : Nat) (t' : TrackerSys), i ≤ j ∧ (run j).trackers.trackers[m]? = some t' ∧ (t'.spawned ≠ t.spawned ∨ t'.up = false)
  delivers : ∀ i, (run i).delivered < (run i).trackers.found.length → ∃ j, i ≤ j ∧ (run j).delivered ≠ (run i).delivered

/-- The actor of torrent `k` does not end: no handler panics. -/
def StaysUp (run : Nat → App) (k : Nat) : Prop := ∀ i s, (run i).proc.slots[k]? = some s → s.sys.down = false

/-- Torrent `k` gets its metadata in the `i`-th step; it then has `m` peers. -/
def GetsAt (run : Nat → App) (k i m : Nat) (info : Info) : Prop :=
  ∃ s t, (run i).proc.slots[k]? = some s ∧ s.sys.torrent.info = none ∧
    (run (i + 1)).proc.slots[k]? = some t ∧ t.sys.torrent.info = some info ∧ t.sys.torrent.peers.length = m

end Spec
