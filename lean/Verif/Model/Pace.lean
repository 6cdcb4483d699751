/-
When what a download does happens: the history of a connection (`Peer.log`) with the time of each entry, in milliseconds as in `Model/Clock.lean`.
-/
import Verif.Model.Clock

namespace RustBit

/-- src/peer/download/mod.rs:63-86: what the first `f` iterations of the loop of `execute` add to the history, with the time of each entry, `now` being the time at
the start. Only reading takes time, so an iteration receives its message and writes its request at the end of its read. -/
def execRunHistory (m : Build) (net : Net) (w : Waits) (d : Downloadable) : Nat → Nat → DState → List (Nat × Ev)
  | 0, _, _ => []
  | f + 1, now, s =>
    let now := now + readStreamTime net w s.peer.conn
    match execStep m net d s with
    | .again s' => (s'.peer.log.drop s.peer.log.length).map (now, ·) ++ execRunHistory m net w d f now s'
    | .done _ p => (p.log.drop s.peer.log.length).map (now, ·)

end RustBit
