/-
Drawing peers at random.
-/
import Verif.Model.Actors

namespace Spec
open RustBit

/-- All ways to draw: a number from 0 to `k - 1`, one from 0 to `k - 2`, and so on down to one from 0 to 1. All of them are equally likely. -/
def draws : Nat → List (List Nat)
  | k + 2 => (List.range (k + 2)).flatMap fun c => (draws (k + 1)).map fun cs => c :: cs
  | _ => [[]]

/-- The peers that failed least, in three classes: less than twice, less than four times, all. -/
def best (peers : List TPeer) : List TPeer :=
  if peers.any (fun p => p.failed < 2) then peers.filter (fun p => p.failed < 2)
  else if peers.any (fun p => p.failed < 4) then peers.filter (fun p => p.failed < 4)
  else peers

end Spec
