/-
Vocabulary for the order in which pieces are written.
-/
import Verif.Model.Actors

namespace Spec
open RustBit

/-- The pieces that a torrent has been told of as got, with their numbers, in order. -/
def gotten : List Mail → List (Bytes × Nat)
  | [] => []
  | .success _ piece i :: log => (piece, i) :: gotten log
  | .failed _ _ :: log => gotten log
  | .found _ :: log => gotten log

/-- What messages to the writer are about. -/
def content (l : List Ready) : List (Bytes × Nat) := l.map fun r => (r.piece, r.idx)

end Spec
