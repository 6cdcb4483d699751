/-
What it is to behave like somebody at a datagram socket.
-/
import Verif.Model.Tracker

namespace Spec
open RustBit

/-- A program at a datagram socket: it is over, or it sends something and learns whether this succeeded, or it receives and learns what came of that. -/
inductive Datagrams (α : Type) where
  | over (a : α)
  | send (msg : Bytes) (next : Bool → Datagrams α)
  | receive (next : UdpRecv → Datagrams α)

/-- The program when the network does as the schedule says: what comes out and what has happened on the socket, `s` having happened before. -/
def Datagrams.run {α : Type} (net : UdpNet) : Datagrams α → UdpState → α × UdpState
  | .over a, s => (a, s)
  | .send msg next, s => (next (net.send s.sent.length)).run net { s with sent := s.sent ++ [msg] }
  | .receive next, s => (next (net.recv s.recvs)).run net { s with recvs := s.recvs + 1 }

/-- A tracker that pays attention, and the network on the way to it: whether something can be sent, and what is received, may depend on all that has been sent (what is
being sent included), and on all that has been received. -/
structure LiveTracker where
  takes : List Bytes → List UdpRecv → Bool
  answers : List Bytes → List UdpRecv → UdpRecv

/-- The program meets such a tracker: what comes out, what has been sent, whether it could be, and what has been received. -/
def Datagrams.meet {α : Type} (τ : LiveTracker) : Datagrams α → List Bytes → List Bool → List UdpRecv → α × List Bytes × List Bool × List UdpRecv
  | .over a, w, o, r => (a, w, o, r)
  | .send msg next, w, o, r => (next (τ.takes (w ++ [msg]) r)).meet τ (w ++ [msg]) (o ++ [τ.takes (w ++ [msg]) r]) r
  | .receive next, w, o, r => (next (τ.answers w r)).meet τ w o (r ++ [τ.answers w r])

end Spec
