/-
Vocabulary for the properties of the tracker actors.
-/
import Verif.Model.Trackers
import Verif.Spec.Tracker

namespace Spec

open RustBit

/-- No mailbox is full. -/
def Calm (T : Trackers) : Prop := T.mail.length < 16 ∧ ∀ t ∈ T.trackers, t.mail.length < 16

/-- Steps all of which start where no mailbox is full. -/
inductive CalmSteps : Trackers → Trackers → Prop
  | refl (T : Trackers) : CalmSteps T T
  | tail {T T' T'' : Trackers} (h : CalmSteps T T') (hc : Calm T') (hs : TStep T' T'') : CalmSteps T T''

/-- The peers of a list whose address accepts a connection when it is their turn, the first of them being the `k`-th. -/
inductive Reached (tcp : Nat → List Nat × Nat → Bool) : Nat → List PeerEndpoint → List PeerEndpoint → Prop
  | nil (k : Nat) : Reached tcp k [] []
  | yes {k : Nat} {x : Addr} {p : PeerEndpoint} {ps qs : List PeerEndpoint} (hx : x.IsDotted p.ip ∧ p.port = x.port)
      (ht : tcp k x.numbers = true) (h : Reached tcp (k + 1) ps qs) : Reached tcp k (p :: ps) (p :: qs)
  | no {k : Nat} {x : Addr} {p : PeerEndpoint} {ps qs : List PeerEndpoint} (hx : x.IsDotted p.ip ∧ p.port = x.port)
      (ht : tcp k x.numbers = false) (h : Reached tcp (k + 1) ps qs) : Reached tcp k (p :: ps) qs

/-- The messages that follow from a sequence of answers: for each, its reachable peers, to the torrent it is about. -/
inductive Told : List Exchange → List (Nat × PeerEndpoint) → Prop
  | nil : Told [] []
  | snoc {log : List Exchange} {found : List (Nat × PeerEndpoint)} (h : Told log found) (e : Exchange) (qs : List PeerEndpoint)
      (hr : Reached e.reach 0 e.peers qs) : Told (log ++ [e]) (found ++ qs.map (fun p => (e.about.torrent, p)))

/-- The answer is one that the program gets from the tracker when asking about the torrent's info hash. -/
def Genuine (e : Exchange) : Prop :=
  ∃ u udp http peerId, builtinUrls[e.tracker]? = some u ∧ (getPeersByTracker udp http peerId u e.about.infoHash).1 = .ok e.peers

end Spec
