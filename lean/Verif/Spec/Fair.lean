/-
Vocabulary for what happens in every run of the program, not just in some.
-/
import Verif.Model.App

namespace Spec
open RustBit

/-- A run of the program that never ends, in a world and from a state that has been reached; the metadata of every torrent satisfies `Q`. -/
structure Run (w : World) (Q : Info → Prop) (fs : FS) (n : Nat) (run : Nat → App) : Prop where
  reached : ASteps w Q (App.init fs n) (run 0)
  on : ∀ i, (run i).proc.log ≠ none
  step : ∀ i, AStep w (run i) (run (i + 1))
  infos : ∀ i, ∀ s ∈ (run i).proc.slots, ∀ info, s.sys.torrent.info = some info → Q info

/-- None of the actors of torrent `k` that has something to do is left waiting for ever:
* a message in the mailbox of the torrent, whose actor is alive and whose thread is not stuck from then on, is followed by one being handled;
* a request and an idle worker are followed by a change of the queue;
* a download is followed by a change of what is being downloaded;
* a piece for a writer that is alive is followed by some work of the writer. -/
structure Fair (run : Nat → App) (k : Nat) : Prop where
  handles : ∀ i s, (run i).proc.slots[k]? = some s → s.sys.mail ≠ [] → s.sys.down = false → (∀ j, i ≤ j → (run j).Free k) →
    ∃ j s', i ≤ j ∧ (run j).proc.slots[k]? = some s' ∧ s'.sys.handled ≠ s.sys.handled
  takes : ∀ i s, (run i).proc.slots[k]? = some s → s.sys.queue ≠ [] → s.sys.busy.length < s.sys.workers →
    ∃ j s', i ≤ j ∧ (run j).proc.slots[k]? = some s' ∧ s'.sys.queue ≠ s.sys.queue
  ends : ∀ i s, (run i).proc.slots[k]? = some s → s.sys.busy ≠ [] →
    ∃ j s', i ≤ j ∧ (run j).proc.slots[k]? = some s' ∧ s'.sys.busy ≠ s.sys.busy
  writes : ∀ i s, (run i).proc.slots[k]? = some s → s.sys.writerUp = true → s.sys.ready ≠ [] →
    ∃ j s', i ≤ j ∧ (run j).proc.slots[k]? = some s' ∧ (s'.parts ≠ s.parts ∨ s'.sys.written ≠ s.sys.written)

/-- The torrent has started, or has more than ten peers, one of which it has been told of and has not looked at yet. -/
def Starts (s : Sys) : Prop := s.torrent.initiated = true ∨ 10 < s.told.length ∧ ∃ p, Mail.found p ∈ s.mail

end Spec
