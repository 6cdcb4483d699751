/-
When torrents with files of any paths have nothing to do with each other on disk, as far as the bytes of the files are concerned.
-/
import Verif.Spec.Anywhere
import Verif.Model.Process

namespace Spec
open RustBit

/-- Metadata of the same torrent, or of one without files in the places of its non-empty files. Directories do not matter. -/
def Elsewhere (cwd : Loc) (info info' : Info) : Prop :=
  info' = info ∨ ∀ f ∈ listedFiles info, 0 < f.length → ∀ g ∈ listedFiles info', place cwd g.path ≠ place cwd f.path

/-- No listed file that is not empty is in the place of the log, or directly in `downloads`. -/
def Spared (cwd : Loc) (info : Info) : Prop :=
  ∀ f ∈ listedFiles info, 0 < f.length → place cwd f.path ≠ cwd ++ [b!"test.log"] ∧ ∀ name, place cwd f.path ≠ cwd ++ [b!"downloads", name]

/-- Metadata of the same torrent, or of one without a file in the place of a directory that a file needs, and that needs no directory in the place of a file. -/
def Unblocked (cwd : Loc) (info info' : Info) : Prop :=
  info' = info ∨ ∀ k f, Touched (listedFiles info) info.pieceLength k f → ∀ g ∈ listedFiles info', ¬ Way cwd f.path (place cwd g.path) ∧ ¬ Way cwd g.path (place cwd f.path)

/-- No file that is written to is in the place of the log or of `downloads`, or needs a directory in the place of the log or of a file in `downloads`. -/
def Passable (cwd : Loc) (info : Info) : Prop :=
  ∀ k f, Touched (listedFiles info) info.pieceLength k f → place cwd f.path ≠ cwd ++ [b!"test.log"] ∧ place cwd f.path ≠ cwd ++ [b!"downloads"] ∧
    ¬ Way cwd f.path (cwd ++ [b!"test.log"]) ∧ ∀ name, ¬ Way cwd f.path (cwd ++ [b!"downloads", name])

/-- The pieces a writer is done with: all it has taken, but the last one if it has died. -/
def settled (s : Sys) : List Ready := if s.writerUp then s.written else s.written.dropLast

end Spec
