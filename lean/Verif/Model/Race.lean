/-
The metadata cache of a torrent that has been added several times: every request makes a torrent actor of its own (src/main.rs:30), on the thread that
got the request, and each of them runs `collect_info` (src/actors/torrent.rs:156-171), on the same file. `collectInfo` (Model/Cache) is one
of them running alone.
-/
import Verif.Model.Cache

namespace RustBit

/-- Where an actor is in `collect_info`.

* `idle`: before line 161 (the directory `downloads` has been made).
* `asking`: there was no cache file; the peer is being asked (line 165).
* `got`: the peer has delivered metadata; the file has not been opened (src/torrent/info.rs:81).
* `saving`: the file is open, `pos` bytes of the document have been written.
* `done`: `collect_info` has returned the metadata.
* `gaveUp`: the same, but writing ended with an error, which is ignored (src/actors/torrent.rs:166).
* `dead`: a panic ended the actor. -/
inductive Collector where
  | idle
  | asking
  | got (i : Info)
  | saving (i : Info) (l : Loc) (pos : Nat)
  | done (i : Info)
  | gaveUp (i : Info)
  | dead

/-- src/actors/torrent.rs:161-163, with what `Info::from_file` returned. -/
def Collector.looked : Res InfoError Info → Collector
  | .ok i => .done i
  | .err _ => .asking
  | _ => .dead

/-- The actors and the disk. -/
structure Race where
  actors : List Collector
  fs : FS

/-- One step of one of the actors. `serves` says which metadata peers deliver. Simplified: a file is read in one go; a document is written in pieces
of any size (`serde_json` writes every bracket, comma, number and fragment of a string by itself). A failed request is followed by another
`PeerFound` (src/actors/torrent.rs:119-129). -/
inductive RStep (cwd : Loc) (path : Bytes) (serves : Info → Prop) : Race → Race → Prop
  | look (R : Race) (k : Nat) (h : R.actors[k]? = some .idle) :
      RStep cwd path serves R { R with actors := R.actors.set k (.looked (Info.fromFile cwd R.fs path)) }
  | refused (R : Race) (k : Nat) (h : R.actors[k]? = some .asking) :
      RStep cwd path serves R { R with actors := R.actors.set k .idle }
  | served (R : Race) (k : Nat) (i : Info) (h : R.actors[k]? = some .asking) (hi : serves i) :
      RStep cwd path serves R { R with actors := R.actors.set k (.got i) }
  | create (R : Race) (k : Nat) (i : Info) (l : Loc) (fs : FS) (h : R.actors[k]? = some (.got i))
      (ho : R.fs.openCreate cwd (PathBuf.parse path) = .ok (l, fs)) :
      RStep cwd path serves R ⟨R.actors.set k (.saving i l 0), fs.set l (.file [])⟩
  | createFails (R : Race) (k : Nat) (i : Info) (h : R.actors[k]? = some (.got i))
      (ho : ∀ x, R.fs.openCreate cwd (PathBuf.parse path) ≠ .ok x) :
      RStep cwd path serves R { R with actors := R.actors.set k .dead }
  | write (R : Race) (k n : Nat) (i : Info) (l : Loc) (pos : Nat) (h : R.actors[k]? = some (.saving i l pos)) (hn : pos + n ≤ i.json.length) :
      RStep cwd path serves R ⟨R.actors.set k (.saving i l (pos + n)), R.fs.writeAt l pos ((i.json.drop pos).take n)⟩
  | finish (R : Race) (k : Nat) (i : Info) (l : Loc) (h : R.actors[k]? = some (.saving i l i.json.length)) :
      RStep cwd path serves R { R with actors := R.actors.set k (.done i) }
  | fails (R : Race) (k : Nat) (i : Info) (l : Loc) (pos : Nat) (h : R.actors[k]? = some (.saving i l pos)) :
      RStep cwd path serves R { R with actors := R.actors.set k (.gaveUp i) }

/-- Any number of steps. -/
inductive RSteps (cwd : Loc) (path : Bytes) (serves : Info → Prop) : Race → Race → Prop
  | refl (R : Race) : RSteps cwd path serves R R
  | tail {R S T : Race} (h : RSteps cwd path serves R S) (hs : RStep cwd path serves S T) : RSteps cwd path serves R T

end RustBit
