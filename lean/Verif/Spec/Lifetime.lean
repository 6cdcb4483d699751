/-
Vocabulary for how long the threads of a torrent are kept.
-/
import Verif.Spec.Prompt

namespace Spec
open RustBit

/-- Every lookup for torrent `k` ends some day. (C97 says when it does: no UDP tracker is silent.) -/
def LookupsEnd (run : Nat → App) (k : Nat) : Prop :=
  ∀ (i m : Nat) (t : TrackerSys) (r : Registered), (run i).trackers.trackers[m]? = some t → r ∈ t.pending → r.torrent = k →
    ∃ (j : Nat) (t' : TrackerSys), i ≤ j ∧ (run j).trackers.trackers[m]? = some t' ∧ r ∉ t'.pending

end Spec
