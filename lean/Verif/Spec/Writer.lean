/-
Specification of the torrent's byte order (BEP 3: the files are concatenated in the order listed) and of what it
means for data to be on disk. Nothing here refers to the writer.
-/
import Verif.Model.FileSystem
import Verif.Model.Info

namespace Spec
open RustBit

/-- Where file `k` begins in the torrent's byte order. -/
def fileStart (files : List File) (k : Nat) : Nat := ((files.take k).map File.length).sum

/-- Length of the torrent. -/
def total (files : List File) : Nat := (files.map File.length).sum

/-- Part of a piece: the file it belongs to, the offset in that file, the bytes. -/
structure Part where
  file : Nat
  offset : Nat
  data : Bytes
  deriving Repr, DecidableEq

/-- The parts lie one after the other from global position `pos` on, each inside one file. -/
def Placed (files : List File) : Nat → List Part → Prop
  | _, [] => True
  | pos, p :: ps => (∃ f, files[p.file]? = some f ∧ p.offset + p.data.length ≤ f.length) ∧
      fileStart files p.file + p.offset = pos ∧ Placed files (pos + p.data.length) ps

/-- Piece `i` of the content `d`. -/
def piece (d : Bytes) (pl i : Nat) : Bytes := (d.drop (i * pl)).take pl

/-- Number of pieces. -/
def pieceCount (n pl : Nat) : Nat := (n + pl - 1) / pl

/-- Content of file `k` of the torrent with content `d`. -/
def fileContent (files : List File) (d : Bytes) (k : Nat) (f : File) : Bytes :=
  (d.drop (fileStart files k)).take f.length

/-- The content of the file at a location. -/
def readFile (fs : FS) (l : Loc) : Option Bytes :=
  match fs l with
  | some (.file c) => some c
  | _ => none

/-- The byte at global position `g`, as found on disk. -/
def diskByte (fs : FS) (cwd : Loc) : List File → Nat → Option UInt8
  | [], _ => none
  | f :: files, g =>
    if g < f.length then (readFile fs (cwd ++ f.path)).bind (fun c => c[g]?)
    else diskByte fs cwd files (g - f.length)

/-- A path made of ordinary names. -/
def Plain (path : List Bytes) : Prop :=
  path ≠ [] ∧ ∀ c ∈ path, c ≠ [] ∧ c ≠ b!"." ∧ c ≠ b!".." ∧ c!"/" ∉ c ∧ (0 : UInt8) ∉ c

/-- No file is listed twice or lies where another needs a directory. -/
def Separate (files : List File) : Prop :=
  ∀ (i j : Nat) (f g : File), files[i]? = some f → files[j]? = some g → f.path <+: g.path → i = j

/-- There is room for the files: no file in the place of a directory, no directory in the place of a file,
no longer file in the place of a file. -/
def Room (fs : FS) (cwd : Loc) (files : List File) : Prop :=
  ∀ f ∈ files, (∀ q c, q <+: f.path → q ≠ f.path → q ≠ [] → fs (cwd ++ q) ≠ some (.file c)) ∧
    fs (cwd ++ f.path) ≠ some .dir ∧ ∀ c, fs (cwd ++ f.path) = some (.file c) → c.length ≤ f.length

/-- The places of the files are free or taken by files, of any length: no file in the place of a directory, no directory in the place
of a file. -/
def Clear (fs : FS) (cwd : Loc) (files : List File) : Prop :=
  ∀ f ∈ files, (∀ q c, q <+: f.path → q ≠ f.path → q ≠ [] → fs (cwd ++ q) ≠ some (.file c)) ∧ fs (cwd ++ f.path) ≠ some .dir

/-- What is on disk at the place of a listed file, beyond its listed length. -/
def beyond (fs : FS) (cwd : Loc) (f : File) : Bytes := ((readFile fs (cwd ++ f.path)).getD []).drop f.length

/-- The path of file `k`. -/
def pathOf (files : List File) (k : Nat) : List Bytes := (files[k]?.map File.path).getD []

/-- All that differs between two file systems lies below `dir`. -/
def OnlyBelow (dir : Loc) (fs fs' : FS) : Prop := ∀ l, fs' l ≠ fs l → dir <+: l

/-- A string that, as a path, is relative and never goes up. -/
def Inward (s : Bytes) : Prop := s.head? ≠ some c!"/" ∧ b!".." ∉ segments s

end Spec
