/-
Model of src/torrent/writer.rs.
-/
import Verif.Model.FileSystem
import Verif.Model.Info

namespace RustBit

/-- src/torrent/writer.rs:29-35 `struct FileWriter`. -/
structure FileWriter where
  path : List Bytes
  start : Nat
  stop : Nat
  piece : Bytes
  deriving Repr, DecidableEq

/-- src/torrent/writer.rs:68-74 `struct FileParser`. -/
structure FileParser where
  pieceLength : Nat
  offset : Nat
  startFileIndex : Nat
  endFileIndex : Nat
  rightFileBoundary : Nat
  deriving Repr, DecidableEq

namespace FileParser
variable {ε : Type}

/-- src/torrent/writer.rs:77-86 `FileParser::new`. -/
def new (m : Build) (pieceLength pieceIndex defaultPieceLength : Nat) : Res ε FileParser := do
  let offset ← umul m pieceIndex defaultPieceLength
  .ok { pieceLength, offset, startFileIndex := offset, endFileIndex := 0, rightFileBoundary := 0 }

/-- src/torrent/writer.rs:88-90 -/
def updateStartFileIndex (p : FileParser) : FileParser := { p with startFileIndex := p.endFileIndex }

/-- src/torrent/writer.rs:92-94 -/
def updateRightFileBoundary (m : Build) (p : FileParser) (fileLength : Nat) : Res ε FileParser := do
  let r ← uadd m p.rightFileBoundary fileLength
  .ok { p with rightFileBoundary := r }

/-- src/torrent/writer.rs:96-98 -/
def updateEndFileIndex (m : Build) (p : FileParser) : Res ε FileParser := do
  let e ← uadd m p.offset p.pieceLength
  .ok { p with endFileIndex := min p.rightFileBoundary e }

/-- src/torrent/writer.rs:100-102 -/
def getStartPieceIndex (m : Build) (p : FileParser) : Res ε Nat := usub m p.startFileIndex p.offset

/-- src/torrent/writer.rs:104-106 -/
def getEndPieceIndex (m : Build) (p : FileParser) : Res ε Nat := usub m p.endFileIndex p.offset

/-- src/torrent/writer.rs:108-110 -/
def getStartFileIndex (m : Build) (p : FileParser) (fileLength : Nat) : Res ε Nat := do
  let b ← usub m p.rightFileBoundary fileLength
  usub m p.startFileIndex b

/-- src/torrent/writer.rs:112-114 -/
def getEndFileIndex (m : Build) (p : FileParser) (fileLength : Nat) : Res ε Nat := do
  let b ← usub m p.rightFileBoundary fileLength
  usub m p.endFileIndex b

/-- src/torrent/writer.rs:116-118 -/
def isPieceInFile (p : FileParser) : Bool := p.offset < p.rightFileBoundary

/-- src/torrent/writer.rs:120-122 -/
def isPieceFinished (m : Build) (p : FileParser) : Res ε Bool := do
  let e ← uadd m p.offset p.pieceLength
  .ok (decide (e > p.rightFileBoundary))

end FileParser

/-- src/torrent/writer.rs:134-156: the loop over the files. -/
def fileWritersLoop {ε : Type} (m : Build) (piece : Bytes) :
    List File → FileParser → List FileWriter → Res ε (List FileWriter)
  | [], _, acc => .ok acc
  | file :: files, p, acc => do
    let p ← p.updateRightFileBoundary m file.length
    if p.isPieceInFile then do
      let p ← p.updateEndFileIndex m
      let start ← p.getStartFileIndex m file.length
      let stop ← p.getEndFileIndex m file.length
      let i ← p.getStartPieceIndex m
      let j ← p.getEndPieceIndex m
      let part ← slice piece i j
      let acc := acc ++ [⟨file.path, start, stop, part⟩]
      let more ← p.isPieceFinished m
      if more then fileWritersLoop m piece files p.updateStartFileIndex acc
      else .ok acc
    else fileWritersLoop m piece files p acc

/-- src/torrent/writer.rs:125-157 `get_file_writers`. -/
def getFileWriters {ε : Type} (m : Build) (files : List File) (piece : Bytes) (idx pieceLength : Nat) :
    Res ε (List FileWriter) := do
  let p ← FileParser.new m piece.length idx pieceLength
  fileWritersLoop m piece files p []

/-- `[String]::join("/")`. -/
def joinPath : List Bytes → Bytes
  | [] => []
  | [s] => s
  | s :: t => s ++ c!"/" :: joinPath t

/-- src/torrent/writer.rs:48-65 `write_to_filesystem`; the process runs in directory `cwd`. Every failure
is unwrapped; what was done before stays done. (For the path `.` the parent is the empty path rather
than absent, and opening it fails: a panic without effect, as here.) -/
def FileWriter.writeToFilesystem {ε : Type} (cwd : Loc) (fs : FS) (w : FileWriter) : Res ε Unit × FS :=
  let path := PathBuf.parse (joinPath w.path)
  if path.comps = [] then (.panic, fs)
  else match fs.createDirAll (path.base cwd) path.comps.dropLast with
    | (.ok (), fs1) => match fs1.openCreate cwd path with
      | .ok (l, fs2) => (.ok (), fs2.writeAt l w.start w.piece)
      | _ => (.panic, fs1)
    | (_, fs1) => (.panic, fs1)

/-- src/torrent/writer.rs:21-23: the `for_each` over the writers. -/
def writeAllParts {ε : Type} (cwd : Loc) : FS → List FileWriter → Res ε Unit × FS
  | fs, [] => (.ok (), fs)
  | fs, w :: ws => match w.writeToFilesystem (ε := ε) cwd fs with
    | (.ok (), fs1) => writeAllParts cwd fs1 ws
    | r => r

/-- src/torrent/writer.rs:15-27 `write` (`WriterError` has no values). -/
def writePiece {ε : Type} (m : Build) (cwd : Loc) (fs : FS) (piece : Bytes) (idx : Nat) (files : List File)
    (pieceLength : Nat) : Res ε Unit × FS :=
  match (getFileWriters m files piece idx pieceLength : Res ε (List FileWriter)) with
  | .ok ws => writeAllParts cwd fs ws
  | .err e => (.err e, fs)
  | .panic => (.panic, fs)
  | .hang => (.hang, fs)

end RustBit
