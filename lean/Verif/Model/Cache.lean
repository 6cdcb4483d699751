/-
The metadata cache: `Info::from_file` and `Info::save` (src/torrent/info.rs), and `collect_info`
(src/actors/torrent.rs).
-/
import Verif.Model.Json
import Verif.Model.Writer
import Verif.Model.Peer

namespace RustBit

/-- `File::open(path)` and `read_to_string`: nothing if the file cannot be opened (a directory can, but not be read) or
is not valid UTF-8. -/
def FS.readToString (fs : FS) (cwd : Loc) (path : Bytes) : Option Bytes :=
  let p := PathBuf.parse path
  if hasNul p.comps || p.trailing then none
  else match fs.walk (p.base cwd) p.comps.dropLast, p.comps.getLast? with
    | .ok l, some name =>
      if name = b!".." then none
      else match fs (l ++ [name]) with
        | some (.file c) => if validUtf8 c then some c else none
        | _ => none
    | _, _ => none

/-- src/torrent/info.rs:60-78 `Info::from_file`; `unwrap` panics on a document that is not an `Info`. -/
def Info.fromFile (cwd : Loc) (fs : FS) (path : Bytes) : Res InfoError Info :=
  match fs.readToString cwd path with
  | none => .err (.noInfoFile path)
  | some s => match Info.fromJson s with
    | some i => .ok i
    | none => .panic

/-- src/torrent/info.rs:80-90 `Info::save`. `File::create` (whose failure panics) leaves an empty file, then the document is written
piecemeal; `room` is the number of bytes written before the first error or before the process stops. -/
def Info.save (i : Info) (cwd : Loc) (fs : FS) (path : Bytes) (room : Nat) : Res InfoError Unit × FS :=
  match fs.openCreate cwd (PathBuf.parse path) with
  | .ok (l, fs') =>
    (if room < i.json.length then .err (.noInfoFile path) else .ok (), fs'.set l (.file (i.json.take room)))
  | _ => (.panic, fs)

/-- src/actors/torrent.rs:157-158: where the metadata of a torrent is cached. -/
def cachePath (infoHash : Bytes) : Bytes := b!"./downloads/" ++ percentEncode infoHash

/-- src/actors/torrent.rs:156-171 `collect_info`: `dial` is what connecting to the endpoint leads to, `f` bounds the download
loop, `room` is as in `Info.save`. -/
def collectInfo {ε : Type} (m : Build) (cwd : Loc) (fs : FS) (dial : Dial) (f : Nat) (peerId infoHash : Bytes) (room : Nat) :
    Res ε (Option Info) × FS :=
  match fs.createDirAll ((PathBuf.parse b!"./downloads").base cwd) (PathBuf.parse b!"./downloads").comps with
  | (.ok (), fs1) =>
    match Info.fromFile cwd fs1 (cachePath infoHash) with
    | .ok i => (.ok (some i), fs1)
    | .err _ =>
      match getInfo m dial f peerId infoHash with
      | .ok i => match i.save cwd fs1 (cachePath infoHash) room with
        | (.ok (), fs2) => (.ok (some i), fs2)
        | (.err _, fs2) => (.ok (some i), fs2)
        | (.panic, fs2) => (.panic, fs2)
        | (.hang, fs2) => (.hang, fs2)
      | .err _ => (.ok none, fs1)
      | .panic => (.panic, fs1)
      | .hang => (.hang, fs1)
    | .panic => (.panic, fs1)
    | .hang => (.hang, fs1)
  | (_, fs1) => (.panic, fs1)

end RustBit
