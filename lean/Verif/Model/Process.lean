/-
Model of src/main.rs and of the whole process: requests add torrents, the torrents (Model/Actors) run beside each other on one
disk, and the process may be stopped and started again at any moment.
-/
import Verif.Model.Actors
import Verif.Model.Magnet

namespace RustBit

/-! ### main.rs -/

/-- What a client of the HTTP server gets; `dropped` is a connection closed without an answer. -/
inductive Response where
  | ok
  | badRequest
  | payloadTooLarge
  | dropped
  deriving Repr, DecidableEq

/-- src/main.rs:25-40 `add_magnet`: the answer, and the info hash of the torrent started, if any. The `String` extractor of actix-web
refuses bodies of more than 256 kB and bodies that are not UTF-8; `unwrap` panics on an error of `parse_magnet`, which ends the
connection's task. -/
def addMagnet (m : Build) (body : Bytes) : Response × Option Bytes :=
  if 262144 < body.length then (.payloadTooLarge, none)
  else if !validUtf8 body then (.badRequest, none)
  else match Magnet.parseMagnet m body with
    | .ok infoHash => (.ok, some infoHash)
    | _ => (.dropped, none)

/-! ### The process -/

/-- A torrent of the process; `parts` is what its writer has still to write of the piece it is busy with (src/torrent/writer.rs:21-23; the
message is still the first of `ready`). The disk of `sys` is not used: there is only one disk. -/
structure Slot where
  sys : Sys
  parts : Option (List FileWriter)

/-- The process, its disk, and (history) the pieces that writers have begun to write, with the metadata of their torrents. `log` is the position
in the log file; there is none while the process is not running. `said` (history) is what has been logged since the process was started last. -/
structure Proc where
  slots : List Slot
  fs : FS
  taken : List (Info × Ready)
  log : Option Nat
  said : List Bytes

/-- The process is not running, and this is the disk. -/
def Proc.init (fs : FS) : Proc := ⟨[], fs, [], none, []⟩

/-- src/main.rs:70-73: the ports on which the program accepts connections (the only call of `bind` for TCP in the program). -/
def listening : List Nat := [8080]

/-- src/main.rs:50: the log file. -/
def logPath : PathBuf := PathBuf.parse b!"./test.log"

/-- src/main.rs:50: `File::create` of the log file: what was there is discarded. -/
def createLog (cwd : Loc) (fs : FS) : Res IoErr FS :=
  match fs.openCreate cwd logPath with
  | .ok (l, fs) => .ok (fs.set l (.file []))
  | .err e => .err e
  | .panic => .panic
  | .hang => .hang

/-- What the disk may be like if the process is stopped while a part is being written (src/torrent/writer.rs:48-65): some of the
directories made, or the file created and some of the bytes written. -/
inductive TornPart (cwd : Loc) (fs : FS) (x : FileWriter) : FS → Prop
  | dirs (k : Nat) (hk : k < (PathBuf.parse (joinPath x.path)).comps.length) :
      TornPart cwd fs x (fs.createDirAll ((PathBuf.parse (joinPath x.path)).base cwd) ((PathBuf.parse (joinPath x.path)).comps.take k)).2
  | data (n : Nat) : TornPart cwd fs x (FileWriter.writeToFilesystem (ε := Unit) cwd fs { x with piece := x.piece.take n }).2

/-- What the disk may be like if the process is stopped: of every part being written something may have been done. -/
inductive TornAll (cwd : Loc) : FS → List Slot → FS → Prop
  | nil (fs : FS) : TornAll cwd fs [] fs
  | skip {fs fs' : FS} {s : Slot} {rest : List Slot} (h : TornAll cwd fs rest fs') : TornAll cwd fs (s :: rest) fs'
  | part {fs fs1 fs' : FS} {s : Slot} {rest : List Slot} {x : FileWriter} {xs : List FileWriter} (hx : s.parts = some (x :: xs))
      (h1 : TornPart cwd fs x fs1) (h : TornAll cwd fs1 rest fs') : TornAll cwd fs (s :: rest) fs'

/-- The writer is done with the first message of its mailbox: `up` says whether it is still alive. -/
def Slot.done (s : Slot) (r : Ready) (ready : List Ready) (up : Bool) : Slot :=
  ⟨{ s.sys with ready, written := s.sys.written ++ [r], writerUp := up }, none⟩

/-- One step of the process.

* `start`: the process starts (src/main.rs:46-75); if the log file cannot be created it ends at once, and there is no step.
* `log`: a line is written to the log, at its position (the file is not opened for appending).
* `add`: a request starts a torrent.
* `act`: a torrent takes a step (of Model/Actors) that is not the writer's.
* `begin`, `part`, `end`, `crash`: the writer of a torrent computes the parts of the next piece (src/torrent/writer.rs:15-20, 125-157), writes one
  of them, has written all, or panics. Writers of different torrents are interleaved part by part.
* `stop`: the process ends, for whatever reason. (A cache file or a log line of which only some has been written is what `act` with little room
  on disk, or `log` with a shorter line, leaves behind.) -/
inductive PStep (w : World) : Proc → Proc → Prop
  | start (P : Proc) (hl : P.log = none) (fs : FS) (h : createLog w.cwd P.fs = .ok fs) :
      PStep w P { P with fs, log := some 0, said := [] }
  | log (P : Proc) (n : Nat) (hl : P.log = some n) (line : Bytes) :
      PStep w P { P with fs := P.fs.writeAt (w.cwd ++ logPath.comps) n line, log := some (n + line.length), said := P.said ++ [line] }
  | add (P : Proc) (hl : P.log ≠ none) (body infoHash : Bytes) (h : addMagnet w.build body = (.ok, some infoHash)) :
      PStep w P { P with slots := P.slots ++ [⟨Sys.init infoHash P.fs, none⟩] }
  | act (P : Proc) (k : Nat) (s : Slot) (t : Sys) (hk : P.slots[k]? = some s) (hst : Step w { s.sys with fs := P.fs } t)
      (hw : t.written = s.sys.written) : PStep w P { P with slots := P.slots.set k ⟨t, s.parts⟩, fs := t.fs }
  | begin (P : Proc) (k : Nat) (s : Slot) (r : Ready) (ready : List Ready) (info : Info) (ws : List FileWriter) (hk : P.slots[k]? = some s)
      (hp : s.parts = none) (hu : s.sys.writerUp = true) (hr : s.sys.ready = r :: ready) (hi : s.sys.torrent.info = some info)
      (h : (getFileWriters w.build r.files r.piece r.idx r.pieceLength : Res Unit (List FileWriter)) = .ok ws) :
      PStep w P { P with slots := P.slots.set k ⟨s.sys, some ws⟩, taken := P.taken ++ [(info, r)] }
  | beginCrash (P : Proc) (k : Nat) (s : Slot) (r : Ready) (ready : List Ready) (info : Info) (hk : P.slots[k]? = some s)
      (hp : s.parts = none) (hu : s.sys.writerUp = true) (hr : s.sys.ready = r :: ready) (hi : s.sys.torrent.info = some info)
      (h : (getFileWriters w.build r.files r.piece r.idx r.pieceLength : Res Unit (List FileWriter)) = .panic) :
      PStep w P { P with slots := P.slots.set k (s.done r ready false), taken := P.taken ++ [(info, r)] }
  | part (P : Proc) (k : Nat) (s : Slot) (x : FileWriter) (xs : List FileWriter) (fs : FS) (hk : P.slots[k]? = some s)
      (hp : s.parts = some (x :: xs)) (h : (x.writeToFilesystem w.cwd P.fs : Res Unit Unit × FS) = (.ok (), fs)) :
      PStep w P { P with slots := P.slots.set k ⟨s.sys, some xs⟩, fs }
  | partCrash (P : Proc) (k : Nat) (s : Slot) (x : FileWriter) (xs : List FileWriter) (fs : FS) (r : Ready) (ready : List Ready)
      (hk : P.slots[k]? = some s) (hp : s.parts = some (x :: xs)) (hr : s.sys.ready = r :: ready)
      (h : (x.writeToFilesystem w.cwd P.fs : Res Unit Unit × FS) = (.panic, fs)) :
      PStep w P { P with slots := P.slots.set k (s.done r ready false), fs }
  | end (P : Proc) (k : Nat) (s : Slot) (r : Ready) (ready : List Ready) (hk : P.slots[k]? = some s) (hp : s.parts = some [])
      (hr : s.sys.ready = r :: ready) : PStep w P { P with slots := P.slots.set k (s.done r ready true) }
  | stop (P : Proc) (order : List Slot) (ho : order.Perm P.slots) (fs : FS) (h : TornAll w.cwd P.fs order fs) :
      PStep w P { P with slots := [], fs, log := none }

/-- Any number of steps during which the metadata of every torrent satisfies `Q`. -/
inductive PSteps (w : World) (Q : Info → Prop) : Proc → Proc → Prop
  | refl (P : Proc) : PSteps w Q P P
  | tail {P P' P'' : Proc} (h : PSteps w Q P P') (hst : PStep w P' P'')
      (hq : ∀ s ∈ P''.slots, ∀ i, s.sys.torrent.info = some i → Q i) : PSteps w Q P P''

end RustBit
