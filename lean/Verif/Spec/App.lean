/-
Vocabulary for the properties of the whole program.
-/
import Verif.Model.App
import Verif.Spec.Trackers

namespace Spec
open RustBit

/-- A peer was in an answer one of the trackers gave when asked about this info hash, and accepted a connection afterwards. -/
def NamedFor (T : Trackers) (infoHash : Bytes) (p : PeerEndpoint) : Prop :=
  ∃ e ∈ T.log, Genuine e ∧ e.about.infoHash = infoHash ∧ ∃ qs, Reached e.reach 0 e.peers qs ∧ p ∈ qs

/-- What the torrent may connect to: a peer in its mailbox, which is asked for metadata, or the peer of a request, which is asked for a piece. -/
def MayDial (s : Sys) (endpoint : Bytes) : Prop :=
  (∃ p, Mail.found p ∈ s.mail ∧ p.endpoint = endpoint) ∨ ∃ r ∈ s.queue ++ s.busy, r.endpoint = endpoint

/-- The peers in the messages to torrent `k`. -/
def messagesTo (k : Nat) (found : List (Nat × PeerEndpoint)) : List PeerEndpoint := (found.filter fun x => x.1 == k).map Prod.snd

/-- Any number of steps during which the program keeps running. -/
inductive OnRun (w : World) : App → App → Prop
  | refl (A : App) : OnRun w A A
  | tail {A A' A'' : App} (h : OnRun w A A') (hs : AStep w A' A'') (hl : A''.proc.log ≠ none) : OnRun w A A''

/-- Any number of steps during which the program keeps running and the metadata of every torrent satisfies `Q`. -/
inductive OnSteps (w : World) (Q : Info → Prop) : App → App → Prop
  | refl (A : App) : OnSteps w Q A A
  | tail {A A' A'' : App} (h : OnSteps w Q A A') (hs : AStep w A' A'') (hq : ∀ s ∈ A''.proc.slots, ∀ i, s.sys.torrent.info = some i → Q i)
      (hl : A''.proc.log ≠ none) : OnSteps w Q A A''

/-- A torrent that has not heard of any peer, has no metadata, and has nothing to do. -/
structure Untouched (s : Slot) : Prop where
  told : s.sys.told = []
  info : s.sys.torrent.info = none
  requests : s.sys.queue ++ s.sys.busy = []
  ready : s.sys.ready = []
  written : s.sys.written = []
  parts : s.parts = none

end Spec
