/-
Vocabulary for how long a download takes.
-/
import Verif.Spec.Fair
import Verif.Spec.Ends

namespace Spec
open RustBit

/-- The pieces for which the torrent has handled a failure, once for each. -/
def failedPieces (log : List Mail) : List Nat :=
  log.filterMap fun m => match m with
    | .failed _ i => some i
    | _ => none

/-- The attempts that are over, one entry for each: of pieces that were handed to the writer, that were lost with the worker, or whose failure has been handled. -/
def over (s : Sys) : List Nat := handed s ++ s.lost ++ failedPieces s.handled

/-- Pieces neither handed to the writer nor lost. -/
def unfinished (s : Sys) : Nat := (waiting s).length + (flight s).length

/-- Torrent `k` is in states with property `P` from the `i`-th to the `j`-th state of a run. -/
def Throughout (run : Nat → App) (k : Nat) (P : Sys → Prop) (i j : Nat) : Prop :=
  ∀ m, i ≤ m → m ≤ j → ∃ s, (run m).proc.slots[k]? = some s ∧ P s.sys

/-- The clock shows `clock i` when the `i`-th state of a run is entered, so this state lasts until `clock (i + 1)`. For torrent `k`:
* no request is left alone for longer than `a` while a worker is idle;
* no download takes longer than `d`;
* no report of a worker is left alone for longer than `b` while the torrent's actor is alive. -/
structure Timed (run : Nat → App) (k : Nat) (clock : Nat → Nat) (a d b : Nat) : Prop where
  mono : ∀ i, clock i ≤ clock (i + 1)
  takes : ∀ p i j, i ≤ j → Throughout run k (fun s => p ∈ s.queue.map Request.idx ∧ s.busy.length < s.workers) i j → clock (j + 1) ≤ clock i + a
  ends : ∀ p i j, i ≤ j → Throughout run k (fun s => p ∈ s.busy.map Request.idx) i j → clock (j + 1) ≤ clock i + d
  handles : ∀ p i j, i ≤ j → Throughout run k (fun s => p ∈ reports s.mail ∧ s.down = false) i j → clock (j + 1) ≤ clock i + b

/-- The pieces that have been downloaded: reported as such to the torrent, or handed to the writer. -/
def downloaded (s : Sys) : List Nat :=
  handed s ++ s.mail.filterMap fun m => match m with
    | .success _ _ i => some i
    | _ => none

/-- Every download of torrent `k` that ends well takes `d` at least: one that a worker begins after the `i`-th state and ends after the `j`-th. -/
structure Slow (run : Nat → App) (k : Nat) (clock : Nat → Nat) (d : Nat) : Prop where
  mono : ∀ i, clock i ≤ clock (i + 1)
  least : ∀ p i j s t u, i < j → (run i).proc.slots[k]? = some s → p ∉ s.sys.busy.map Request.idx →
    Throughout run k (fun s => p ∈ s.busy.map Request.idx) (i + 1) j → (run j).proc.slots[k]? = some t → p ∉ downloaded t.sys →
    (run (j + 1)).proc.slots[k]? = some u → p ∈ downloaded u.sys → clock (i + 1) + d ≤ clock (j + 1)

end Spec
