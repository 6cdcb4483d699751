/-
The file system as seen by the std calls used in src/torrent/writer.rs, src/torrent/info.rs and
src/actors/torrent.rs. POSIX semantics without symbolic links, permissions, quotas and name-length
limits; a write is all or nothing.
-/
import Verif.Model.Prelude

namespace RustBit

/-- A location: the names on the way from the root directory. -/
abbrev Loc := List Bytes

/-- What a location holds. -/
inductive Node where
  | dir
  | file (content : Bytes)
  deriving Repr, DecidableEq

/-- A file system maps locations to what they hold, if anything. -/
abbrev FS := Loc → Option Node

namespace FS

/-- The file system with one location changed. -/
def set (fs : FS) (l : Loc) (n : Node) : FS := fun l' => if l' = l then some n else fs l'

end FS

/-- The distinction `create_dir_all` makes between errors: `ErrorKind::NotFound` or any other. -/
inductive IoErr where
  | notFound
  | other
  deriving Repr, DecidableEq

/-- The parts of a string between its `/`s. -/
def segments : Bytes → List Bytes
  | [] => [[]]
  | b :: t => if b = c!"/" then [] :: segments t else match segments t with
    | [] => [[b]]
    | s :: r => (b :: s) :: r

/-- A path as `std::path::Path` and the kernel understand it: absolute or not, the components other than
`.` (empty ones, from repeated slashes, do not count), and whether it ends in `/` or `/.` (such a path can
only denote a directory). -/
structure PathBuf where
  absolute : Bool
  comps : List Bytes
  trailing : Bool
  deriving Repr, DecidableEq

/-- `Path::new(s)` (`std::path::Components`). -/
def PathBuf.parse (s : Bytes) : PathBuf where
  absolute := s.head? == some c!"/"
  comps := (segments s).filter (fun c => c ≠ [] ∧ c ≠ b!".")
  trailing := match (segments s).getLast? with
    | some c => c = [] ∨ c = b!"."
    | none => true

/-- The directory a path starts from. -/
def PathBuf.base (cwd : Loc) (p : PathBuf) : Loc := if p.absolute then [] else cwd

/-- A path with a NUL byte is refused before any system call (`CString::new`). -/
def hasNul (comps : List Bytes) : Bool := comps.any (fun c => c.contains 0)

namespace FS

/-- Follow the components from directory `l`; every one must be an existing directory. -/
def walk (fs : FS) : Loc → List Bytes → Res IoErr Loc
  | l, [] => .ok l
  | l, c :: cs =>
    if c = b!".." then walk fs l.dropLast cs
    else match fs (l ++ [c]) with
      | some .dir => walk fs (l ++ [c]) cs
      | some (.file _) => .err .other
      | none => .err .notFound

/-- mkdir(2). -/
def mkdir (fs : FS) (base : Loc) (comps : List Bytes) : Res IoErr FS :=
  if hasNul comps then .err .other
  else match comps.getLast? with
    | none => .err .other
    | some name => do
      let l ← fs.walk base comps.dropLast
      if name = b!".." then .err .other
      else match fs (l ++ [name]) with
        | some _ => .err .other
        | none => .ok (fs.set (l ++ [name]) .dir)

/-- `Path::is_dir`. -/
def isDir (fs : FS) (base : Loc) (comps : List Bytes) : Bool :=
  !hasNul comps && match fs.walk base comps with
    | .ok _ => true
    | _ => false

/-- `std::fs::create_dir_all` (`DirBuilder::create_dir_all`), on the components in reverse order: try to
create the directory; if something on the way is missing create the parent first. What was created
before a failure stays. -/
def createDirAllRev (fs : FS) (base : Loc) : List Bytes → Res IoErr Unit × FS
  | [] => (.ok (), fs)
  | c :: rest =>
    match fs.mkdir base (c :: rest).reverse with
    | .ok fs' => (.ok (), fs')
    | .err .notFound =>
      match createDirAllRev fs base rest with
      | (.ok (), fs1) =>
        match fs1.mkdir base (c :: rest).reverse with
        | .ok fs2 => (.ok (), fs2)
        | _ => if fs1.isDir base (c :: rest).reverse then (.ok (), fs1) else (.err .other, fs1)
      | r => r
    | _ => if fs.isDir base (c :: rest).reverse then (.ok (), fs) else (.err .other, fs)

/-- `std::fs::create_dir_all(path)`. -/
def createDirAll (fs : FS) (base : Loc) (comps : List Bytes) : Res IoErr Unit × FS :=
  fs.createDirAllRev base comps.reverse

/-- open(2) for writing with `O_CREAT`: the location of the file, and the file system with the
(possibly new, empty) file. -/
def openCreate (fs : FS) (cwd : Loc) (p : PathBuf) : Res IoErr (Loc × FS) :=
  if hasNul p.comps || p.trailing then .err .other
  else match p.comps.getLast? with
    | none => .err .other
    | some name => do
      let l ← fs.walk (p.base cwd) p.comps.dropLast
      if name = b!".." then .err .other
      else match fs (l ++ [name]) with
        | some .dir => .err .other
        | some (.file _) => .ok (l ++ [name], fs)
        | none => .ok (l ++ [name], fs.set (l ++ [name]) (.file []))

end FS

/-- The content of a file after pwrite(2): a gap before the offset is filled with zeros; writing nothing
changes nothing. -/
def pwrite (content : Bytes) (start : Nat) (bytes : Bytes) : Bytes :=
  if bytes = [] then content
  else content.take start ++ List.replicate (start - content.length) 0 ++ bytes ++
    content.drop (start + bytes.length)

namespace FS

/-- `FileExt::write_at` on the open file at `l`. -/
def writeAt (fs : FS) (l : Loc) (start : Nat) (bytes : Bytes) : FS :=
  match fs l with
  | some (.file content) => fs.set l (.file (pwrite content start bytes))
  | _ => fs

end FS
end RustBit
