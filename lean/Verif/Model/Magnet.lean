/-
Model of src/torrent/magnet.rs.
-/
import Verif.Model.Prelude

namespace RustBit

/-- src/torrent/magnet.rs:7-10 `enum MagnetError`. -/
inductive MagnetError where
  | noMagnet
  deriving Repr, DecidableEq

namespace Magnet

/-- src/torrent/magnet.rs:30-38 `byte_to_hex`: `byte - 48` underflows for bytes below `'0'` (debug:
panic, release: wraps). -/
def byteToHex (m : Build) (b : UInt8) : Res MagnetError UInt8 :=
  if 65 ≤ b && b ≤ 90 then .ok (b - 55)
  else if 97 ≤ b && b ≤ 122 then .ok (b - 87)
  else if 48 ≤ b then .ok (b - 48)
  else match m with
    | .debug => .panic
    | .release => .ok (b - 48)

/-- src/torrent/magnet.rs:40-49 `hex_decode`: pairs of digits, an odd last digit being dropped. -/
def hexDecode (m : Build) : Bytes → Res MagnetError Bytes
  | x :: y :: t => do
    let a ← byteToHex m x
    let b ← byteToHex m y
    let r ← hexDecode m t
    .ok ((a <<< 4 ||| b) :: r)
  | _ => .ok []

/-- src/torrent/magnet.rs:51-57 `parse_info_hash`. -/
def parseInfoHash (m : Build) (uri : Bytes) : Res MagnetError Bytes := do
  let c ← index uri 60
  if c = c!"&" then do
    let h ← slice uri 20 60
    hexDecode m h
  else slice uri 20 52

/-- src/torrent/magnet.rs:18-20 `verify_info_hash` (true means: not a magnet). -/
def verifyInfoHash (uri : Bytes) : Bool := uri.length < 60 || uri.take 8 != b!"magnet:?"

/-- src/torrent/magnet.rs:59-67 `parse_magnet`; a `Magnet` is its info hash. -/
def parseMagnet (m : Build) (uri : Bytes) : Res MagnetError Bytes :=
  if verifyInfoHash uri then .err .noMagnet else parseInfoHash m uri

end Magnet
end RustBit
