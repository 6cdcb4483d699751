/-
Who is at an address: somebody who knows the torrent, or somebody who says what has been said to them.
-/
import Verif.Spec.Conversation
import Verif.Spec.Stream

namespace Spec
open RustBit

/-- Whoever is there is told more than the handshake, which everybody is told. -/
def ToldMore (log : List Ev) : Prop := 1 < (written log).length

/-- All that has come in during the first `t` calls is what has been written. -/
def Echoed (net : Net) (t : Nat) (log : List Ev) : Prop := arrivals net 0 t = (written log).flatten

end Spec
