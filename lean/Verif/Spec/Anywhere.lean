/-
Where the files of a torrent are, whatever their paths are made of: components may have slashes in them, be empty, `.` or `..`, and a path may be
absolute. Nothing here refers to the writer.
-/
import Verif.Spec.Escape
import Verif.Spec.EndToEnd

namespace Spec
open RustBit

/-- The components of a path with slashes between them. -/
def pathText (path : List Bytes) : Bytes := [c!"/"].intercalate path

/-- Where a path leads from the working directory. -/
def place (cwd : Loc) (path : List Bytes) : Loc := lex ((PathBuf.parse (pathText path)).base cwd) (PathBuf.parse (pathText path)).comps

/-- A directory that has to be there for the path: where one of its names but the last leads. -/
def Way (cwd : Loc) (path : List Bytes) (l : Loc) : Prop :=
  ∃ q c n r, (PathBuf.parse (pathText path)).comps = q ++ c :: n :: r ∧ c ≠ b!".." ∧ l = lex ((PathBuf.parse (pathText path)).base cwd) (q ++ [c])

/-- A path that can be that of a file: it ends in a name, without a slash behind, and has no NUL byte. -/
def Servable (path : List Bytes) : Prop :=
  (∃ r name, (PathBuf.parse (pathText path)).comps = r ++ [name] ∧ name ≠ b!"..") ∧ (PathBuf.parse (pathText path)).trailing = false ∧
    ∀ x ∈ (PathBuf.parse (pathText path)).comps, (0 : UInt8) ∉ x

/-- The listed files under their places instead of their paths. -/
def placedFiles (cwd : Loc) (files : List File) : List File := files.map fun f => ⟨place cwd f.path, f.length⟩

/-- File `k` is written to when all pieces are written: it is not empty, or begins inside a piece. -/
def Touched (files : List File) (pl k : Nat) (f : File) : Prop :=
  files[k]? = some f ∧ (0 < f.length ∨ fileStart files k % pl ≠ 0 ∧ fileStart files k < total files)

/-- What the paths of the files that are written to and the disk have to be like: the paths can be those of files, no file is in the place of a directory that has to
be there for one, on the disk no file is in the place of such a directory and no directory in the place of a file. -/
structure Receptive (cwd : Loc) (fs : FS) (files : List File) (pl : Nat) : Prop where
  servable : ∀ k f, Touched files pl k f → Servable f.path
  ways : ∀ j k f g, Touched files pl j f → Touched files pl k g → ¬ Way cwd g.path (place cwd f.path)
  noFile : ∀ k f, Touched files pl k f → ∀ l c, Way cwd f.path l → fs l ≠ some (.file c)
  noDir : ∀ k f, Touched files pl k f → fs (place cwd f.path) ≠ some .dir

/-- Files in the same place have the same bytes as far as both go. -/
def Agreeing (cwd : Loc) (files : List File) (d : Bytes) : Prop :=
  ∀ (i j : Nat) (f g : File), files[i]? = some f → files[j]? = some g → place cwd f.path = place cwd g.path →
    ∀ x, x < f.length → x < g.length → d[fileStart files i + x]? = d[fileStart files j + x]?

/-- Files in the same place have the same length, unless one is empty. -/
def SameLength (cwd : Loc) (files : List File) : Prop :=
  ∀ f ∈ files, ∀ g ∈ files, 0 < f.length → 0 < g.length → place cwd f.path = place cwd g.path → f.length = g.length

end Spec
