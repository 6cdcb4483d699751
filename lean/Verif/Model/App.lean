/-
Model of the whole program: the process (Model/Process) and the trackers (Model/Trackers) joined by the messages that go between them, and the
threads on which the torrent actors run.
-/
import Verif.Model.Process
import Verif.Model.Trackers

namespace RustBit

/-- The peers a torrent has been told of, in order. -/
def Sys.told (s : Sys) : List PeerEndpoint :=
  (s.handled ++ s.mail).filterMap fun m => match m with
    | .found p => some p
    | _ => none

/-- The whole program. A torrent is known to the trackers by its position in `proc.slots`, which stands for the address of its actor.

A torrent actor runs on the thread of the HTTP worker that got the request (src/main.rs:30, `start` in a handler of actix-web); its handlers
block this thread, the download of metadata included (src/actors/torrent.rs:119-120). -/
structure App where
  proc : Proc
  trackers : Trackers
  /-- How many threads answer requests: actix-web starts one for every processor (src/main.rs:69-72, no `workers`). -/
  threads : Nat
  /-- How many of the messages in `trackers.found` have been put into the mailboxes of the torrents. (They are sent by one thread: all trackers are on
  the thread of `main`, src/main.rs:48, and are on their way in one order.) -/
  delivered : Nat
  /-- The threads of the torrents. -/
  home : List Nat
  /-- The threads that are in a handler that does not end. -/
  stuck : List Nat

/-- The program is not running, and this is the disk. -/
def App.init (fs : FS) (threads : Nat) : App := ⟨Proc.init fs, Trackers.init, threads, 0, [], []⟩

/-- Torrent `k` can handle a message: its thread is not stuck. -/
def App.Free (A : App) (k : Nat) : Prop := ∃ h, A.home[k]? = some h ∧ h ∉ A.stuck

/-- One step of the program.

* `start`: the process starts, with new tracker actors (src/main.rs:46-50).
* `work`: a step of the process that is not one of the others: nothing is added, no torrent is told of a peer, and handlers only run on threads
  that are not stuck.
* `add`: a request, got by a thread that is not stuck, starts a torrent, which is sent to the trackers if their mailbox is not full
  (src/main.rs:26-39).
* `track`: the tracker actors take a step.
* `deliver`: a message `PeerFound` gets into the mailbox of its torrent (`do_send`, src/actors/tracker.rs:35; this mailbox is never full). The disk in
  `sys` is not used.
* `stick`: the torrent actor handles `PeerFound`, asks the peer for metadata, and this never ends (src/actors/torrent.rs:119-120). Simplified: the
  directory `downloads`, which is made before the peer is asked, is not made in the model, and the message stays in the mailbox.
* `stop`: the process ends. -/
inductive AStep (w : World) : App → App → Prop
  | start (A : App) (hl : A.proc.log = none) (P' : Proc) (h : PStep w A.proc P') (hr : P'.log ≠ none) :
      AStep w A ⟨P', Trackers.init, A.threads, 0, [], []⟩
  | work (A : App) (hl : A.proc.log ≠ none) (P' : Proc) (h : PStep w A.proc P') (hr : P'.log ≠ none)
      (hn : P'.slots.length = A.proc.slots.length)
      (hq : ∀ k s s', A.proc.slots[k]? = some s → P'.slots[k]? = some s' →
        s'.sys.told = s.sys.told ∧ (s'.sys.handled ≠ s.sys.handled → A.Free k)) : AStep w A { A with proc := P' }
  | add (A : App) (hl : A.proc.log ≠ none) (body infoHash : Bytes) (h : addMagnet w.build body = (.ok, some infoHash)) (thread : Nat)
      (hb : thread < A.threads) (hf : thread ∉ A.stuck) (T' : Trackers) (ht : TStep A.trackers T')
      (ha : T'.added = A.trackers.added ++ [⟨infoHash, A.proc.slots.length⟩]) :
      AStep w A { A with
        proc := { A.proc with slots := A.proc.slots ++ [⟨Sys.init infoHash A.proc.fs, none⟩] }
        trackers := T'
        home := A.home ++ [thread] }
  | track (A : App) (hl : A.proc.log ≠ none) (T' : Trackers) (ht : TStep A.trackers T') (ha : T'.added = A.trackers.added) :
      AStep w A { A with trackers := T' }
  | deliver (A : App) (hl : A.proc.log ≠ none) (k : Nat) (p : PeerEndpoint) (s : Slot) (hd : A.trackers.found[A.delivered]? = some (k, p))
      (hk : A.proc.slots[k]? = some s) :
      AStep w A { A with
        proc := { A.proc with slots := A.proc.slots.set k ⟨{ s.sys with fs := A.proc.fs, mail := s.sys.mail ++ [.found p] }, s.parts⟩ }
        delivered := A.delivered + 1 }
  | stick (A : App) (k h : Nat) (s : Slot) (p : PeerEndpoint) (rest : List Mail) (hk : A.proc.slots[k]? = some s) (hh : A.home[k]? = some h)
      (hf : h ∉ A.stuck) (hd : s.sys.down = false) (hm : s.sys.mail = .found p :: rest) (hi : s.sys.torrent.info = none)
      (tcp : List Nat × Nat → Option Net) (peerId : Bytes) (room : Nat)
      (hc : ∀ f, (collectInfo w.build w.cwd A.proc.fs (dialOf p.endpoint tcp) f peerId s.sys.torrent.infoHash room : Res Unit (Option Info) × FS).1 = .hang) :
      AStep w A { A with stuck := h :: A.stuck }
  | stop (A : App) (P' : Proc) (h : PStep w A.proc P') (hr : P'.log = none) : AStep w A ⟨P', Trackers.init, A.threads, 0, [], []⟩

/-- Any number of steps during which the metadata of every torrent satisfies `Q`. -/
inductive ASteps (w : World) (Q : Info → Prop) : App → App → Prop
  | refl (A : App) : ASteps w Q A A
  | tail {A A' A'' : App} (h : ASteps w Q A A') (hs : AStep w A' A'')
      (hq : ∀ s ∈ A''.proc.slots, ∀ i, s.sys.torrent.info = some i → Q i) : ASteps w Q A A''

end RustBit
