/-
Model of src/actors/tracker.rs and src/actors/trackers_interface.rs: the tracker actors and the actor that passes torrents on to them, as a
transition system.
-/
import Verif.Model.Tracker

namespace RustBit

/-- src/actors/messages.rs:12-17 `TorrentRegistered`; `torrent` stands for the address of the torrent actor. -/
structure Registered where
  infoHash : Bytes
  torrent : Nat
  deriving Repr, DecidableEq

/-- The default capacity of an actix mailbox. With this many messages waiting `try_send` may fail (src/main.rs:37,
src/actors/trackers_interface.rs:61); with fewer it does not. (Whether it fails with more depends on which senders have been
parked; the model allows both.) -/
def mailboxCapacity : Nat := 16

/-- src/actors/tracker.rs:11-13 `struct TrackerActor`, with its mailbox and the futures it has spawned. -/
structure TrackerSys where
  url : TrackerUrl
  /-- No future has panicked; a panic ends the actor, its other futures included. -/
  up : Bool
  mail : List Registered
  /-- Lookups that have been spawned and have not ended. -/
  pending : List Registered
  /-- History: lookups spawned. -/
  spawned : List Registered
  /-- History: lookups that ended, without and with an error. -/
  answered : List Registered
  failed : List Registered
  deriving Repr, DecidableEq

/-- src/actors/trackers_interface.rs:35-38: a tracker actor is started. -/
def TrackerSys.new (url : TrackerUrl) : TrackerSys := ⟨url, true, [], [], [], [], []⟩

/-- src/actors/trackers_interface.rs:61, one `try_send`: its result is ignored. -/
inductive Offer (r : Registered) : TrackerSys → TrackerSys → Prop
  | sent (t : TrackerSys) (hu : t.up = true) : Offer r t { t with mail := t.mail ++ [r] }
  | full (t : TrackerSys) (hu : t.up = true) (hm : mailboxCapacity ≤ t.mail.length) : Offer r t t
  | closed (t : TrackerSys) (hu : t.up = false) : Offer r t t

/-- src/actors/trackers_interface.rs:60-62: the loop over the trackers. -/
inductive OfferAll (r : Registered) : List TrackerSys → List TrackerSys → Prop
  | nil : OfferAll r [] []
  | cons {t t' : TrackerSys} {ts ts' : List TrackerSys} (h : Offer r t t') (hs : OfferAll r ts ts') : OfferAll r (t :: ts) (t' :: ts')

/-- A lookup that ended without an error: at which tracker, for whom, the peers in the answer, and which addresses accepted a connection
when the `i`-th of them was tried. -/
structure Exchange where
  tracker : Nat
  about : Registered
  peers : List PeerEndpoint
  reach : Nat → List Nat × Nat → Bool

/-- The trackers of the process. -/
structure Trackers where
  /-- The mailbox of the interface actor. -/
  mail : List Registered
  trackers : List TrackerSys
  /-- History: torrents added, and those passed on by the interface actor. -/
  added : List Registered
  passed : List Registered
  /-- History: the `PeerFound` messages sent, with the torrents they are sent to. -/
  found : List (Nat × PeerEndpoint)
  /-- History: the lookups that ended without an error. -/
  log : List Exchange

/-- src/actors/trackers_interface.rs:11-44 `TrackersInterfaceActor::new`. -/
def Trackers.init : Trackers := ⟨[], builtinUrls.map TrackerSys.new, [], [], [], []⟩

/-- One step.

* `add`, `addFull`: a request has started a torrent (src/main.rs:30-37), which is put into the mailbox of the interface actor unless it is full.
* `pass`: the interface actor handles the first message (src/actors/trackers_interface.rs:59-65).
* `spawn`: a tracker actor handles the first message (src/actors/tracker.rs:27-44): it spawns a future and returns.
* `answer`, `fail`, `crash`: a future ends (src/actors/tracker.rs:31-38). All messages are sent without an interruption. A lookup that never ends
  has no step. -/
inductive TStep : Trackers → Trackers → Prop
  | add (T : Trackers) (r : Registered) : TStep T { T with mail := T.mail ++ [r], added := T.added ++ [r] }
  | addFull (T : Trackers) (r : Registered) (h : mailboxCapacity ≤ T.mail.length) : TStep T { T with added := T.added ++ [r] }
  | pass (T : Trackers) (r : Registered) (rest : List Registered) (ts : List TrackerSys) (hm : T.mail = r :: rest)
      (h : OfferAll r T.trackers ts) : TStep T { T with mail := rest, trackers := ts, passed := T.passed ++ [r] }
  | spawn (T : Trackers) (k : Nat) (t : TrackerSys) (r : Registered) (rest : List Registered) (hk : T.trackers[k]? = some t)
      (hu : t.up = true) (hm : t.mail = r :: rest) :
      TStep T { T with
        trackers := T.trackers.set k { t with mail := rest, pending := t.pending ++ [r], spawned := t.spawned ++ [r] } }
  | answer (T : Trackers) (k : Nat) (t : TrackerSys) (pre post : List Registered) (r : Registered) (hk : T.trackers[k]? = some t)
      (hu : t.up = true) (hp : t.pending = pre ++ r :: post) (udp : UdpNet) (http : Bytes → HttpGet)
      (tcp : Nat → List Nat × Nat → Bool) (peerId : Bytes) (peers : List PeerEndpoint) (traffic : Traffic)
      (h : getPeersByTracker udp http peerId t.url r.infoHash = (.ok peers, traffic)) :
      TStep T { T with
        trackers := T.trackers.set k { t with pending := pre ++ post, answered := t.answered ++ [r] }
        found := T.found ++ (forwardLoop tcp 0 peers).map (fun p => (r.torrent, p))
        log := T.log ++ [⟨k, r, peers, tcp⟩] }
  | fail (T : Trackers) (k : Nat) (t : TrackerSys) (pre post : List Registered) (r : Registered) (hk : T.trackers[k]? = some t)
      (hu : t.up = true) (hp : t.pending = pre ++ r :: post) (udp : UdpNet) (http : Bytes → HttpGet) (peerId : Bytes)
      (e : TrackerError) (traffic : Traffic) (h : getPeersByTracker udp http peerId t.url r.infoHash = (.err e, traffic)) :
      TStep T { T with trackers := T.trackers.set k { t with pending := pre ++ post, failed := t.failed ++ [r] } }
  | crash (T : Trackers) (k : Nat) (t : TrackerSys) (r : Registered) (hk : T.trackers[k]? = some t)
      (hu : t.up = true) (hp : r ∈ t.pending) (udp : UdpNet) (http : Bytes → HttpGet) (peerId : Bytes)
      (traffic : Traffic) (h : getPeersByTracker udp http peerId t.url r.infoHash = (.panic, traffic)) :
      TStep T { T with trackers := T.trackers.set k { t with up := false, mail := [], pending := [] } }

/-- Any number of steps. -/
inductive TSteps : Trackers → Trackers → Prop
  | refl (T : Trackers) : TSteps T T
  | tail {T T' T'' : Trackers} (h : TSteps T T') (hs : TStep T' T'') : TSteps T T''

end RustBit
