/-
What it means for metadata to describe published content (BEP 3): the files, one after the other, are the content, and there is a
hash for each piece.
-/
import Verif.Spec.Writer

namespace Spec
open RustBit

/-- The files some metadata lists: a single file has the name of the torrent. -/
def listedFiles (i : Info) : List File :=
  match i.files with
  | some fs => fs
  | none => [⟨[i.name], i.length.getD 0⟩]

/-- The metadata describes the content `d`. -/
structure Describes (sha : Bytes → Bytes) (i : Info) (d : Bytes) : Prop where
  total : total (listedFiles i) = d.length
  pieceLength : 0 < i.pieceLength
  hashes : ∀ k, k < pieceCount d.length i.pieceLength → (i.pieces.drop (20 * k)).take 20 = sha (piece d i.pieceLength k)

/-- All listed files that are not empty are on disk, with their part of the content. -/
def FilesRight (fs : FS) (cwd : Loc) (files : List File) (d : Bytes) : Prop :=
  ∀ k f, files[k]? = some f → 0 < f.length → readFile fs (cwd ++ f.path) = some (fileContent files d k f)

/-- All listed files that are not empty are on disk, with their part of the content followed by what was on the disk `fs0` beyond
their listed length. -/
def FilesOver (fs0 fs : FS) (cwd : Loc) (files : List File) (d : Bytes) : Prop :=
  ∀ k f, files[k]? = some f → 0 < f.length →
    readFile fs (cwd ++ f.path) = some (fileContent files d k f ++ ((readFile fs0 (cwd ++ f.path)).getD []).drop f.length)

/-- No file that is longer than listed is in the place of a listed file that is not empty. -/
def NoneLonger (fs : FS) (cwd : Loc) (files : List File) : Prop :=
  ∀ f ∈ files, 0 < f.length → ∀ c, readFile fs (cwd ++ f.path) = some c → c.length ≤ f.length

/-- Two different texts with the same hash. -/
def Collision (sha : Bytes → Bytes) (a b : Bytes) : Prop := a ≠ b ∧ sha a = sha b

end Spec
