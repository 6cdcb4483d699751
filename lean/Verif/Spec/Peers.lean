/-
Which peers a torrent may ask for a piece, told from what it has heard.
-/
import Verif.Spec.Actors

namespace Spec
open RustBit

/-- How often the peer failed since it was named last; nothing if it has not been named. -/
def failuresSince (endpoint : Bytes) : List Mail → Option Nat
  | [] => none
  | m :: log => match failuresSince endpoint log with
    | some n => some n
    | none => match m with
      | .found p => if p.endpoint = endpoint then some (failures endpoint log) else none
      | _ => none

/-- The peer has been named. -/
def NamedPeer (endpoint : Bytes) (log : List Mail) : Prop := ∃ p, Mail.found p ∈ log ∧ p.endpoint = endpoint

/-- No peer has been named twice. -/
def NamedOnce (log : List Mail) : Prop :=
  (log.filterMap fun m => match m with | .found p => some p.endpoint | _ => none).Nodup

/-- Two failures are tolerated, then four if every peer has two, then all if every peer has four; what counts is what happened since a peer was named last. -/
def Eligible (log : List Mail) (endpoint : Bytes) : Prop :=
  ∃ n, failuresSince endpoint log = some n ∧
    (n < 2 ∨ (∀ e m, failuresSince e log = some m → 2 ≤ m) ∧ (n < 4 ∨ ∀ e m, failuresSince e log = some m → 4 ≤ m))

/-- The same with all failures counted. -/
def EligibleInTotal (log : List Mail) (endpoint : Bytes) : Prop :=
  NamedPeer endpoint log ∧
    (failures endpoint log < 2 ∨ (∀ e, NamedPeer e log → 2 ≤ failures e log) ∧ (failures endpoint log < 4 ∨ ∀ e, NamedPeer e log → 4 ≤ failures e log))

end Spec
