/-
Model of src/torrent/{file,info}.rs (the JSON cache functions `from_file`/`save` are in Model/Cache).
-/
import Verif.Model.Bencode

namespace RustBit

/-- src/torrent/file.rs:7-10 `struct File`. -/
structure File where
  path : List Bytes
  length : Nat
  deriving Repr, DecidableEq

/-- src/torrent/info.rs:14-20 `struct Info`. -/
structure Info where
  files : Option (List File)
  length : Option Nat
  name : Bytes
  pieceLength : Nat
  pieces : Bytes
  deriving Repr, DecidableEq

/-- src/torrent/info.rs:23-32 `enum InfoError`. -/
inductive InfoError where
  | metainfoError (e : MetainfoError)
  | decoderError (e : DecoderError)
  | noFileLength
  | noInfoFile (path : Bytes)
  deriving Repr, DecidableEq

/-- src/torrent/file.rs:24-27, the loop collecting the path components. -/
def pathComponents : List Metainfo → Res MetainfoError (List Bytes)
  | [] => .ok []
  | a :: t => do
    let s ← a.getStringContent
    let r ← pathComponents t
    .ok (s :: r)

/-- src/torrent/file.rs:19-30 `File::from_metainfo` (`FileError` only wraps `MetainfoError`). -/
def File.fromMetainfo (m : Metainfo) : Res MetainfoError File := do
  let len ← m.getIntegerFromDict b!"length"
  let l ← m.getListFromDict b!"path"
  let p ← pathComponents l
  .ok { path := p, length := len }

/-- `Iterator::flat_map` over `Result`s (src/torrent/info.rs:49): errors are dropped. -/
def keepOk {ε α : Type} : List (Res ε α) → List α
  | [] => []
  | .ok a :: t => a :: keepOk t
  | _ :: t => keepOk t

namespace Info

/-- src/torrent/info.rs:40-58 `Info::from_metainfo`. The accessors return (never panic). -/
def fromMetainfo (a : Metainfo) : Res InfoError Info := do
  let pieces ← (a.getBytesFromDict b!"pieces").mapErr .metainfoError
  let pieceLength ← (a.getIntegerFromDict b!"piece length").mapErr .metainfoError
  let name ← (a.getStringFromDict b!"name").mapErr .metainfoError
  let length ← (a.getIntegerFromDict b!"length").toOption
  let elements ← (a.getListFromDict b!"files").toOption
  let files := elements.map (fun l => keepOk (l.map File.fromMetainfo))
  .ok { files, length, name, pieceLength, pieces }

/-- src/torrent/info.rs:35-38 `Info::from_bytes`. -/
def fromBytes (bytes : Bytes) : Res InfoError Info := do
  let (m, _) ← (Decoder.decode bytes).mapErr .decoderError
  fromMetainfo m

end Info

/-- src/torrent/file.rs:46-57 `Encode for File`. -/
def File.encode (f : File) : Bytes :=
  [b!"d", encodeDictEntry b!"length" (encUsize f.length),
    encodeDictEntry b!"path" (encVec (f.path.map encStr)), b!"e"].flatten

namespace Info

/-- src/torrent/info.rs:131-148 `Encode for Info`. -/
def encode (i : Info) : Bytes :=
  [b!"d",
    encodeDictEntry b!"files" (encOpt (i.files.map (fun fs => encVec (fs.map File.encode)))),
    encodeDictEntry b!"length" (encOpt (i.length.map encUsize)),
    encodeDictEntry b!"name" (encStr i.name),
    encodeDictEntry b!"piece length" (encUsize i.pieceLength),
    encodeDictEntry b!"pieces" (encBytes i.pieces),
    b!"e"].flatten

/-- src/torrent/info.rs:125-127 `compute_info_hash`, `sha` being SHA-1. -/
def computeInfoHash (sha : Bytes → Bytes) (i : Info) : Bytes := sha i.encode

end Info

/-- `slice::chunks_exact(n)`: the consecutive length-`n` chunks, a shorter rest being dropped. -/
def chunksExact (n : Nat) (l : Bytes) : List Bytes :=
  (List.range (l.length / n)).map (fun i => (l.drop (i * n)).take n)

/-- `iter().sum::<usize>()`, with the overflow behaviour of the build. -/
def usum {ε : Type} (m : Build) (l : List Nat) : Res ε Nat :=
  l.foldl (fun acc x => acc >>= fun a => uadd m a x) (.ok 0)

namespace Info

/-- src/torrent/info.rs:92-97 `get_piece`: panics when there is no such chunk. -/
def getPiece {ε : Type} (i : Info) (index : Nat) : Res ε Bytes :=
  match (chunksExact 20 i.pieces)[index]? with
  | some c => .ok c
  | none => .panic

/-- src/torrent/info.rs:99-101 `verify_piece`. -/
def verifyPiece {ε : Type} (sha : Bytes → Bytes) (i : Info) (piece : Bytes) (idx : Nat) :
    Res ε Bool := do
  let h ← i.getPiece idx
  .ok (sha piece == h)

/-- src/torrent/info.rs:107-112 `get_total_length`: `self.length.unwrap()` panics on `None`. -/
def getTotalLength {ε : Type} (m : Build) (i : Info) : Res ε Nat :=
  match i.files with
  | some fs => usum m (fs.map File.length)
  | none => match i.length with
    | some n => .ok n
    | none => .panic

/-- src/torrent/info.rs:114-123 `get_files`. -/
def getFiles (i : Info) : Res InfoError (List File) :=
  match i.files with
  | some fs => .ok fs
  | none => match i.length with
    | some n => .ok [{ path := [i.name], length := n }]
    | none => .err .noFileLength

end Info
end RustBit
