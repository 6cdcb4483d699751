/-
Model of how long the actors of a torrent live. src/actors/torrent.rs:29-42 starts six threads for every torrent, and nothing in the program stops
an actor: actix ends an actor when nobody has its address any more and its mailbox is empty, or when a handler panics. The transition systems of
Model/Actors and Model/App leave this out; C116 shows that nothing happens to a torrent after that.
-/
import Verif.Model.App

namespace RustBit

/-- The address of torrent `k` is in a message to the actor that passes torrents on, in a message to a tracker, or in a lookup that has not ended
(src/actors/messages.rs:12-17, src/actors/tracker.rs:30-42; src/main.rs:30-37 keeps none). -/
def Trackers.Holds (T : Trackers) (k : Nat) : Prop :=
  (∃ r ∈ T.mail, r.torrent = k) ∨ ∃ t ∈ T.trackers, ∃ r ∈ t.mail ++ t.pending, r.torrent = k

/-- The address of the torrent is in a message to its workers or its writer, or in one that they are handling (src/actors/messages.rs:40-59). The
messages of threads that have all ended are gone. -/
def Sys.Holds (s : Sys) : Prop :=
  (s.queue ≠ [] ∧ s.workers ≠ 0) ∨ s.busy ≠ [] ∨ (s.ready ≠ [] ∧ s.writerUp = true)

/-- Somebody has the address of torrent `k`. -/
def App.Held (A : App) (k : Nat) : Prop := A.trackers.Holds k ∨ ∃ s, A.proc.slots[k]? = some s ∧ s.sys.Holds

/-- The actor of torrent `k` has ended: a handler panicked, or nobody has its address and there is no message for it, those not yet in
its mailbox included. -/
def App.Ended (A : App) (k : Nat) : Prop :=
  ∃ s, A.proc.slots[k]? = some s ∧
    (s.sys.down = true ∨ ¬ A.Held k ∧ s.sys.mail = [] ∧ ∀ p, (k, p) ∉ A.trackers.found.drop A.delivered)

/-- The threads of torrent `k` have ended: its actor, which has the addresses of the workers and of the writer (src/actors/torrent.rs:18-26), has ended,
and they have no message left (`SyncArbiter`). -/
def App.Released (A : App) (k : Nat) : Prop := A.Ended k ∧ ∃ s, A.proc.slots[k]? = some s ∧ ¬ s.sys.Holds

/-- src/actors/torrent.rs:31-32 (`SyncArbiter::start`): how many threads of its own a torrent has that have not died in a panic, until it is released. -/
def Sys.ownThreads (s : Sys) : Nat := s.workers + if s.writerUp then 1 else 0

end RustBit
