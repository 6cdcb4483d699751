/-
What a torrent keeps in memory.
-/
import Verif.Model.Actors

namespace Spec
open RustBit

/-- The piece in a report. -/
def reported : Mail → Option (Nat × Bytes)
  | .success _ pc i => some (i, pc)
  | .found _ => none
  | .failed _ _ => none

/-- The pieces in memory that have been downloaded and not been written, with their numbers: those reported to the torrent actor, and those in the mailbox
of the writer. -/
def held (s : Sys) : List (Nat × Bytes) := s.mail.filterMap reported ++ s.ready.map fun r => (r.idx, r.piece)

/-- How many bytes they have. -/
def heldBytes (s : Sys) : Nat := ((held s).map fun x => x.2.length).sum

end Spec
