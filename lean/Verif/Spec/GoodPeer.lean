/-
Downloads that fail, and peers that do not fail.
-/
import Verif.Spec.Peers
import Verif.Spec.Ends

namespace Spec
open RustBit

/-- There is a peer that has not failed twice since it was named last. -/
def GoodPeer (log : List Mail) : Prop := ∃ e n, failuresSince e log = some n ∧ n < 2

/-- The number of failures among some messages. -/
def failedIn (log : List Mail) : Nat :=
  log.countP fun m => match m with
    | .failed _ _ => true
    | _ => false

/-- Who has reported a download, the report not having been handled. -/
def reporters (mail : List Mail) : List Bytes :=
  mail.filterMap fun m => match m with
    | .found _ => none
    | .success e _ _ => some e
    | .failed e _ => some e

/-- Who is asked for a piece, once for each piece in flight. -/
def asked (s : Sys) : List Bytes := s.queue.map Request.endpoint ++ s.busy.map Request.endpoint ++ reporters s.mail

end Spec
