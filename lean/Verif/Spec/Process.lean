/-
When two torrents have nothing to do with each other on disk.
-/
import Verif.Spec.EndToEnd
import Verif.Model.Writer

namespace Spec
open RustBit

/-- The names in a relative path: what is between the slashes, except `.` and nothing. -/
def names (s : Bytes) : List Bytes := (segments s).filter (fun c => c ≠ [] ∧ c ≠ b!".")

/-- A path that stays in the working directory and is neither one of the files, nor above, nor below one. -/
def Apart (files : List File) (path : List Bytes) : Prop :=
  Inward (joinPath path) ∧ ∀ f ∈ files, ¬ names (joinPath path) <+: f.path ∧ ¬ f.path <+: names (joinPath path)

/-- Metadata of the same torrent, or of one with files elsewhere. -/
def Beside (info info' : Info) : Prop := info' = info ∨ ∀ f ∈ listedFiles info', Apart (listedFiles info) f.path

/-- No listed file is in `downloads` or has the name of the log file. -/
def Unreserved (info : Info) : Prop :=
  ∀ f ∈ listedFiles info, f.path.head? ≠ some b!"downloads" ∧ f.path.head? ≠ some b!"test.log"

/-- A path that stays in the working directory and out of `downloads`. -/
def OutsideCache (path : List Bytes) : Prop :=
  Inward (joinPath path) ∧ (names (joinPath path)).head? ≠ some b!"downloads"

/-- No listed file is in `downloads`, or outside of the working directory. -/
def LeavesCache (info : Info) : Prop := ∀ f ∈ listedFiles info, OutsideCache f.path

end Spec
