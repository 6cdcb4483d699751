/-
Vocabulary for the property that downloads end.
-/
import Verif.Spec.Actors

namespace Spec
open RustBit

/-- A run of a given number of steps. -/
inductive Trace (w : World) : Sys → Nat → Sys → Prop
  | refl (s : Sys) : Trace w s 0 s
  | tail {s t u : Sys} {k : Nat} (h : Trace w s k t) (hs : Step w t u) : Trace w s (k + 1) u

/-- Peers reported by trackers so far. -/
def peersReported (s : Sys) : Nat :=
  (s.handled ++ s.mail).countP fun m => match m with
    | .found _ => true
    | _ => false

/-- Downloads that ended with an error so far. -/
def downloadsFailed (s : Sys) : Nat :=
  (s.handled ++ s.mail).countP fun m => match m with
    | .failed _ _ => true
    | _ => false

end Spec
