/-
How much room the files of torrents take on the disk.
-/
import Verif.Spec.Anywhere
import Verif.Spec.Tracker
import Verif.Model.Process

namespace Spec
open RustBit

/-- How many bytes there are in the file at a location. -/
def sizeAt (fs : FS) (l : Loc) : Nat := match fs l with
  | some (.file c) => c.length
  | _ => 0

/-- Places where the program itself keeps something: the log, and the metadata it saves, directly in `downloads`, in files whose names stand for 20 or 32 bytes. -/
def OwnPlace (cwd l : Loc) : Prop := l = cwd ++ [b!"test.log"] ∨
  ∃ name, NormalEscapes name ∧ ((percentDecode name).length = 20 ∨ (percentDecode name).length = 32) ∧ l = cwd ++ [b!"downloads", name]

/-- Some metadata lists a file at this place, with so many bytes or more. -/
def ListsAt (cwd : Loc) (infos : List Info) (l : Loc) (n : Nat) : Prop :=
  ∃ info ∈ infos, ∃ f ∈ listedFiles info, place cwd f.path = l ∧ n ≤ f.length

/-- The torrents of which pieces have been written. -/
def writtenOf (taken : List (Info × Ready)) : List Info := taken.map Prod.fst

/-- The end of a piece, wherever in the content it begins, is a position that can be counted in 64 bits. -/
def Countable (x : Info × Ready) : Prop := total (listedFiles x.1) + x.2.piece.length ≤ 2 ^ 64

end Spec
