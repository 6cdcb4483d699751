import Verif.Model.Writer

/-!
src/torrent/writer.rs on a disk that fails: `create_dir_all`, `open` and `write_at` may return errors, which are unwrapped, and `write_at`
may take fewer bytes than it is given (the disk is nearly full, a quota, a signal), which is not looked at.
-/

namespace RustBit

/-- What the operating system does during one call of `write_to_filesystem`. -/
structure DiskEv where
  /-- `some k`: creating the directories fails after the first `k` components of the path. -/
  dirs : Option Nat
  /-- Whether the file can be opened, as far as the operating system is concerned. -/
  opens : Bool
  /-- How many bytes `write_at` takes at most; `none`: it returns an error. -/
  takes : Option Nat
  deriving Repr, DecidableEq

/-- A disk: what happens at the successive calls. -/
abbrev Disk := Nat → DiskEv

/-- src/torrent/writer.rs:48-65 `write_to_filesystem` on such a disk. The number of bytes `write_at` reports (line 61) is thrown away. -/
def FileWriter.writeFaulty {ε : Type} (ev : DiskEv) (cwd : Loc) (fs : FS) (w : FileWriter) : Res ε Unit × FS :=
  let path := PathBuf.parse (joinPath w.path)
  if path.comps = [] then (.panic, fs)
  else match ev.dirs with
    | some k => (.panic, (fs.createDirAll (path.base cwd) (path.comps.dropLast.take k)).2)
    | none => match fs.createDirAll (path.base cwd) path.comps.dropLast with
      | (.ok (), fs1) =>
        if ev.opens then match fs1.openCreate cwd path with
          | .ok (l, fs2) => match ev.takes with
            | some n => (.ok (), fs2.writeAt l w.start (w.piece.take n))
            | none => (.panic, fs2)
          | _ => (.panic, fs1)
        else (.panic, fs1)
      | (_, fs1) => (.panic, fs1)

/-- src/torrent/writer.rs:21-23: the `for_each` over the writers, beginning with event `t` of the disk. -/
def writeAllFaulty {ε : Type} (disk : Disk) (cwd : Loc) : Nat → FS → List FileWriter → Res ε Unit × FS
  | _, fs, [] => (.ok (), fs)
  | t, fs, w :: ws => match w.writeFaulty (ε := ε) (disk t) cwd fs with
    | (.ok (), fs1) => writeAllFaulty disk cwd (t + 1) fs1 ws
    | r => r

/-- src/torrent/writer.rs:15-27 `write`. -/
def writePieceFaulty {ε : Type} (disk : Disk) (t : Nat) (m : Build) (cwd : Loc) (fs : FS) (piece : Bytes) (idx : Nat) (files : List File)
    (pieceLength : Nat) : Res ε Unit × FS :=
  match (getFileWriters m files piece idx pieceLength : Res ε (List FileWriter)) with
  | .ok ws => writeAllFaulty disk cwd t fs ws
  | .err e => (.err e, fs)
  | .panic => (.panic, fs)
  | .hang => (.hang, fs)

end RustBit
