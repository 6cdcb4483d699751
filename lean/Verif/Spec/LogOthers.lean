/-
What a reader of the log learns about lookups, the metadata cache and the writing of pieces.
-/
import Verif.Model.LogOthers

namespace Spec
open RustBit

/-- The answers of trackers the log tells of: how many peers, and from where. -/
def lookedUp (log : List LogRec) : List (Nat × UrlView) :=
  log.filterMap fun r => match r with
    | .peersFound n v => some (n, v)
    | _ => none

/-- The tries of the connection request the log says could not be sent. -/
def triesFailed (log : List LogRec) : List Nat :=
  log.filterMap fun r => match r with
    | .udpSendFailed k => some k
    | _ => none

/-- The cache files the log says were found. -/
def cacheSeen (log : List LogRec) : List Bytes :=
  log.filterMap fun r => match r with
    | .cacheFound p => some p
    | _ => none

/-- The cache files the log says could not be read. -/
def cacheNotRead (log : List LogRec) : List Bytes :=
  log.filterMap fun r => match r with
    | .cacheUnreadable _ p => some p
    | _ => none

/-- The cache files the log says could not be written. -/
def cacheNotSaved (log : List LogRec) : List Bytes :=
  log.filterMap fun r => match r with
    | .cacheUnsaved _ p => some p
    | _ => none

/-- The connection requests among the datagrams of a lookup (BEP 15: they are 16 bytes long; announces are longer). -/
def requestsSent (sent : List Bytes) : Nat := (sent.filter fun b => b.length = 16).length

/-- The tries, counted from 1, of which the operating system reports that they could not be sent. -/
def notSent (send : Nat → Bool) (n : Nat) : List Nat := ((List.range n).filter fun k => !send k).map (· + 1)

end Spec
