/-
Addresses that have been named as peers, whoever is there.
-/
import Verif.Spec.Peers
import Verif.Spec.Conversation

namespace Spec
open RustBit

/-- How often the address has been named. -/
def timesNamed (endpoint : Bytes) (log : List Mail) : Nat :=
  log.countP fun m => match m with
    | .found p => p.endpoint == endpoint
    | _ => false

/-- Whoever is there has not greeted us as a peer that has the torrent would. -/
def Stranger (hash : Bytes) (log : List Ev) : Prop := ∀ m x, Ev.got m ∈ log → m.content = .handshake x → x.infoHash ≠ hash

end Spec
