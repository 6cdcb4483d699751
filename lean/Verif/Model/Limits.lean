/-
src/torrent/writer.rs on an operating system that refuses far offsets.
-/
import Verif.Model.Disk

namespace RustBit

/-- What the disk does for a part: `write_at` (src/torrent/writer.rs:61) hands its offset over as a signed number of 64 bits, so offsets from `L` = 2^63 on are
refused (EINVAL); a file system that only takes files of `L` bytes refuses those from there on (EFBIG). -/
def limitEv (L : Nat) (w : FileWriter) : DiskEv := ⟨none, true, if w.start < L then some w.piece.length else none⟩

/-- src/torrent/writer.rs:21-23: the `for_each` over the writers. -/
def writeAllLimited {ε : Type} (L : Nat) (cwd : Loc) : FS → List FileWriter → Res ε Unit × FS
  | fs, [] => (.ok (), fs)
  | fs, w :: ws => match w.writeFaulty (ε := ε) (limitEv L w) cwd fs with
    | (.ok (), fs1) => writeAllLimited L cwd fs1 ws
    | r => r

/-- src/torrent/writer.rs:15-27 `write`. -/
def writePieceLimited {ε : Type} (L : Nat) (m : Build) (cwd : Loc) (fs : FS) (piece : Bytes) (idx : Nat) (files : List File)
    (pieceLength : Nat) : Res ε Unit × FS :=
  match (getFileWriters m files piece idx pieceLength : Res ε (List FileWriter)) with
  | .ok ws => writeAllLimited L cwd fs ws
  | .err e => (.err e, fs)
  | .panic => (.panic, fs)
  | .hang => (.hang, fs)

end RustBit
