/-
Vocabulary for statements about the actors of a torrent: where the pieces are, what a queue is, what was counted.
-/
import Verif.Model.Actors

namespace Spec
open RustBit

/-! ### Queues -/

/-- An operation on a queue of numbers. -/
inductive QOp where
  | pop
  | insert (i : Nat)
  deriving Repr, DecidableEq

/-- What was put in, in order. -/
def inserted (ops : List QOp) : List Nat :=
  ops.filterMap fun o => match o with
    | .pop => none
    | .insert i => some i

/-! ### Where the pieces are -/

/-- The pieces reported by the workers, the report not having been handled. -/
def reports (mail : List Mail) : List Nat :=
  mail.filterMap fun m => match m with
    | .found _ => none
    | .success _ _ i => some i
    | .failed _ i => some i

/-- The pieces waiting. -/
def waiting (s : Sys) : List Nat := s.torrent.pool.getD []

/-- The pieces in flight: requested, being downloaded, or reported. -/
def flight (s : Sys) : List Nat := s.queue.map Request.idx ++ s.busy.map Request.idx ++ reports s.mail

/-- The pieces handed to the writer. -/
def handed (s : Sys) : List Nat := (s.written ++ s.ready).map Ready.idx

/-- The length of the torrent described by some metadata: of the files if there is a list, of the one file otherwise. -/
def contentLength (i : Info) : Nat :=
  match i.files with
  | some fs => total' fs
  | none => i.length.getD 0
where total' (fs : List File) : Nat := (fs.map File.length).sum

/-- Number of pieces of a torrent: its length divided by the piece length, rounded up. -/
def count (i : Info) : Nat := (contentLength i + i.pieceLength - 1) / i.pieceLength

/-- Number of pieces when the lengths of the files are added up modulo 2^64. -/
def wrappedCount (i : Info) : Nat :=
  (match i.files with
  | some fs => (fs.map File.length).sum % 2 ^ 64
  | none => i.length.getD 0) |> fun n => (n + i.pieceLength - 1) / i.pieceLength

/-! ### Counting -/

/-- Number of failures reported for an endpoint. -/
def failures (endpoint : Bytes) (log : List Mail) : Nat :=
  log.countP fun m => match m with
    | .failed e _ => e == endpoint
    | _ => false

/-- Number of successes reported for an endpoint. -/
def successes (endpoint : Bytes) (log : List Mail) : Nat :=
  log.countP fun m => match m with
    | .success e _ _ => e == endpoint
    | _ => false

/-- The peers found, in order, each with what was reported for its endpoint after it was found. -/
def peersAfter : List Mail → List TPeer
  | [] => []
  | .found p :: log => ⟨p.endpoint, successes p.endpoint log, failures p.endpoint log⟩ :: peersAfter log
  | _ :: log => peersAfter log

end Spec
