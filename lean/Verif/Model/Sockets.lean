/-
How many sockets the program has open: those that stay open between the steps of Model/App. (During a step a thread may have one more, that of a
peer which is asked for metadata or is tried out, src/peer/manager.rs:31, src/tracker/peer_endpoint.rs:23-28; those of the HTTP server are left out.)
-/
import Verif.Model.App

namespace RustBit

/-- src/tracker/udp_tracker.rs:26-28: a lookup has a socket of its own until it ends (or until it has got its answer, if the peers in it are still to be tried out). -/
def Trackers.sockets (T : Trackers) : Nat := (T.trackers.map fun t => t.pending.length).sum

/-- Those of them that are for torrent `k`. -/
def Trackers.socketsFor (T : Trackers) (k : Nat) : Nat := (T.trackers.map fun t => t.pending.countP fun r => r.torrent == k).sum

/-- src/peer/manager.rs:57-83: a worker has one connection while it works on a request, which is closed when `download` is left, in a panic as well. -/
def Sys.connections (s : Sys) : Nat := s.busy.length

/-- The sockets of all torrents, and those of the threads that wait for metadata for ever (src/peer/manager.rs:30-31). -/
def App.sockets (A : App) : Nat := A.trackers.sockets + (A.proc.slots.map fun s => s.sys.connections).sum + A.stuck.length

/-- The sockets of torrent `k`, but for the one on which its metadata is awaited. -/
def App.socketsFor (A : App) (k : Nat) : Nat := A.trackers.socketsFor k + ((A.proc.slots[k]?).map fun s => s.sys.connections).getD 0

end RustBit
