/-
The log lines: every `info!`, `error!` and `debug!` of the program, what they print, and the format set up in src/main.rs:50-66. Records of the
libraries, which are written to the same file, are not modelled.
-/
import Verif.Model.Cache

namespace RustBit

/-! ### `{:?}` -/

/-- The first character of a text: its code point, and how many bytes it has after the first. (A byte that is not part of valid UTF-8, which a
`str` does not contain, is taken by itself.) -/
def charAt (b : UInt8) (t : Bytes) : Nat × Nat :=
  if b < 0x80 then (b.toNat, 0)
  else match t with
    | [] => (b.toNat, 0)
    | c :: t2 =>
      if 0xC2 ≤ b && b ≤ 0xDF && isCont c then ((b.toNat - 0xC0) * 64 + (c.toNat - 0x80), 1)
      else match t2 with
        | [] => (b.toNat, 0)
        | d :: t3 =>
          if utf8Lead3 b c && isCont d then ((b.toNat - 0xE0) * 4096 + (c.toNat - 0x80) * 64 + (d.toNat - 0x80), 2)
          else match t3 with
            | [] => (b.toNat, 0)
            | e :: _ =>
              if utf8Lead4 b c && isCont d && isCont e then
                ((b.toNat - 0xF0) * 262144 + (c.toNat - 0x80) * 4096 + (d.toNat - 0x80) * 64 + (e.toNat - 0x80), 3)
              else (b.toNat, 0)

/-- The characters of a text, up to so many. -/
def charsF : Nat → Bytes → List (Nat × Bytes)
  | 0, _ => []
  | _, [] => []
  | f + 1, b :: t => ((charAt b t).1, b :: t.take (charAt b t).2) :: charsF f (t.drop (charAt b t).2)

/-- `str::chars`: the code points of a text and the bytes of each. -/
def chars (s : Bytes) : List (Nat × Bytes) := charsF s.length s

/-- Lower-case hexadecimal digit. -/
def hexLower (n : Nat) : UInt8 := if n < 10 then UInt8.ofNat (48 + n) else UInt8.ofNat (87 + n)

/-- Hexadecimal digits of a number, the last one first. -/
def hexRev : Nat → Nat → Bytes
  | 0, _ => []
  | f + 1, n => hexLower (n % 16) :: (if n / 16 = 0 then [] else hexRev f (n / 16))

/-- `char::escape_unicode`: hexadecimal without leading zeros. -/
def escapeUnicode (n : Nat) : Bytes := b!"\\u{" ++ (hexRev (n + 1) n).reverse ++ b!"}"

/-- `char::escape_debug_ext` as `<str as Debug>::fmt` calls it (single quotes are not escaped). `shown` says which code points beyond ASCII are
printable and no grapheme extenders, for which `core` has a table. -/
def escapeDebug (shown : Nat → Bool) (c : Nat × Bytes) : Bytes :=
  if c.1 = 0 then b!"\\0"
  else if c.1 = 9 then b!"\\t"
  else if c.1 = 10 then b!"\\n"
  else if c.1 = 13 then b!"\\r"
  else if c.1 = 34 then [92, 34]
  else if c.1 = 92 then [92, 92]
  else if (if c.1 < 128 then decide (32 ≤ c.1) && decide (c.1 < 127) else shown c.1) then c.2
  else escapeUnicode c.1

/-- `<str as Debug>::fmt`. -/
def debugStr (shown : Nat → Bool) (s : Bytes) : Bytes := 34 :: ((chars s).flatMap (escapeDebug shown) ++ [34])

/-- The items of `debug_list`, `debug_map` and `debug_tuple`, separated. -/
def commas : List Bytes → Bytes
  | [] => []
  | [x] => x
  | x :: y :: t => x ++ b!", " ++ commas (y :: t)

/-- `<Vec<u8> as Debug>::fmt`. -/
def debugBytes (b : Bytes) : Bytes := b!"[" ++ commas (b.map fun x => decimal x.toNat) ++ b!"]"

mutual
/-- src/bencode/metainfo.rs:5 `#[derive(Debug)]`. The entries of a dictionary are printed in the order of the association list, for which any order may
stand. -/
def Metainfo.debug (shown : Nat → Bool) : Metainfo → Bytes
  | .integer n => b!"Integer(" ++ decimal n ++ b!")"
  | .list l => b!"List([" ++ commas (debugElems shown l) ++ b!"])"
  | .string s => b!"String(" ++ debugBytes s ++ b!")"
  | .dictionary d => b!"Dictionary({" ++ commas (debugEntries shown d) ++ b!"})"
  | .nothing => b!"Nothing"
def debugElems (shown : Nat → Bool) : List Metainfo → List Bytes
  | [] => []
  | v :: t => v.debug shown :: debugElems shown t
def debugEntries (shown : Nat → Bool) : List (Bytes × Metainfo) → List Bytes
  | [] => []
  | (k, v) :: t => (debugStr shown k ++ b!": " ++ v.debug shown) :: debugEntries shown t
end

/-- `Option`'s `#[derive(Debug)]`. -/
def debugOption : Option Bytes → Bytes
  | none => b!"None"
  | some x => b!"Some(" ++ x ++ b!")"

/-- src/messages/{request,extension,bitfield,handshake,interested,mod}.rs `#[derive(Debug)]` of the contents of a message. -/
def ContentType.debug (shown : Nat → Bool) : ContentType → Bytes
  | .request r => b!"Request(RequestMessage { piece_index: " ++ decimal r.pieceIndex ++ b!", block_index: " ++ decimal r.blockIndex ++
      b!", block_data: " ++ debugBytes r.blockData ++ b!" })"
  | .extension e => b!"Extension(ExtensionMessage { id: " ++ decimal e.id.toNat ++ b!", msg_type: " ++ debugOption (e.msgType.map decimal) ++
      b!", metadata_size: " ++ debugOption (e.metadataSize.map decimal) ++ b!", extensions: {" ++
      commas (e.extensions.map fun x => debugStr shown x.1 ++ b!": " ++ decimal x.2.toNat) ++ b!"}, piece: " ++ debugOption (e.piece.map decimal) ++
      b!", data: " ++ debugBytes e.data ++ b!" })"
  | .interested => b!"Interested(InterestedMessage)"
  | .bitfield b => b!"Bitfield(BitfieldMessage { bitfield: " ++ debugBytes b ++ b!" })"
  | .handshake h => b!"Handshake(HandshakeMessage { protocol_identifier_length: " ++ decimal h.protocolIdentifierLength.toNat ++
      b!", protocol_identifier: " ++ debugBytes h.protocolIdentifier ++ b!", reserved_bytes: " ++ debugBytes h.reservedBytes ++
      b!", info_hash: " ++ debugBytes h.infoHash ++ b!", peer_id: " ++ debugBytes h.peerId ++ b!" })"
  | .nothing => b!"Nothing"

/-- src/messages/mod.rs:26-31 `#[derive(Debug)]`. -/
def Message.debug (shown : Nat → Bool) (m : Message) : Bytes :=
  b!"Message { id: " ++ decimal m.id.toNat ++ b!", length: " ++ decimal m.length ++ b!", content: " ++ m.content.debug shown ++ b!" }"

/-- A name made of letters: those of `std::io::ErrorKind`. -/
structure KindName where
  name : Bytes
  letters : ∀ b ∈ name, (65 ≤ b ∧ b ≤ 90) ∨ (97 ≤ b ∧ b ≤ 122)

/-- An error of the operating system or of the library: `std::io::Error` (with a code or without), or `serde_json::Error`. -/
inductive IoError where
  | os (code : Nat) (kind : KindName) (message : Bytes)
  | simple (kind : KindName) (message : Bytes)
  | json (message : Bytes) (line column : Nat)

/-- Their `Debug`. -/
def IoError.debug (shown : Nat → Bool) : IoError → Bytes
  | .os code kind message => b!"Os { code: " ++ decimal code ++ b!", kind: " ++ kind.name ++ b!", message: " ++ debugStr shown message ++ b!" }"
  | .simple kind message => b!"Error { kind: " ++ kind.name ++ b!", message: " ++ debugStr shown message ++ b!" }"
  | .json message line column => b!"Error(" ++ debugStr shown message ++ b!", line: " ++ decimal line ++ b!", column: " ++ decimal column ++ b!")"

/-- src/bencode/decode.rs:13-23: `Display` of `DecoderError`. -/
def DecoderError.display : DecoderError → Bytes
  | .badNumberFromString n => b!"Bad number from string at position: " ++ decimal n
  | .badNumberDecode s => b!"Bad number decode from: " ++ s
  | .noStringFound n => b!"Expected to parse a string at position: " ++ decimal n
  | .badStringFromBytes n => b!"Bad string from bytes conversion at position: " ++ decimal n

/-- `url::Host`: a name or an IPv4 address (an IPv6 address cannot occur, src/actors/trackers_interface.rs:12-31). -/
inductive UrlHost where
  | domain (s : Bytes)
  | ipv4 (a b c d : Nat)

/-- What `Debug` of a `url::Url` shows. -/
structure UrlView where
  scheme : Bytes
  cannotBeABase : Bool
  username : Bytes
  password : Option Bytes
  host : Option UrlHost
  port : Option Nat
  path : Bytes
  query : Option Bytes
  fragment : Option Bytes

/-- `Debug` of `url::Host`. -/
def UrlHost.debug (shown : Nat → Bool) : UrlHost → Bytes
  | .domain s => b!"Domain(" ++ debugStr shown s ++ b!")"
  | .ipv4 a b c d => b!"Ipv4(" ++ decimal a ++ b!"." ++ decimal b ++ b!"." ++ decimal c ++ b!"." ++ decimal d ++ b!")"

/-- `Debug` of `url::Url`. -/
def UrlView.debug (shown : Nat → Bool) (u : UrlView) : Bytes :=
  b!"Url { scheme: " ++ debugStr shown u.scheme ++ b!", cannot_be_a_base: " ++ (if u.cannotBeABase then b!"true" else b!"false") ++
    b!", username: " ++ debugStr shown u.username ++ b!", password: " ++ debugOption (u.password.map (debugStr shown)) ++
    b!", host: " ++ debugOption (u.host.map (UrlHost.debug shown)) ++ b!", port: " ++ debugOption (u.port.map decimal) ++
    b!", path: " ++ debugStr shown u.path ++ b!", query: " ++ debugOption (u.query.map (debugStr shown)) ++
    b!", fragment: " ++ debugOption (u.fragment.map (debugStr shown)) ++ b!" }"

/-! ### The records -/

/-- The log records of the program, one constructor for each statement (the two statements `No message available to read` and the six of
`apply_message` are told apart by their line). -/
inductive LogRec where
  /-- src/bencode/decode.rs:52-55 -/
  | notText (pos : Nat)
  /-- src/bencode/decode.rs:63-66 -/
  | notNumber (pos : Nat)
  /-- src/tracker/mod.rs:41 -/
  | peersFound (n : Nat) (tracker : UrlView)
  /-- src/tracker/udp_tracker.rs:72 -/
  | udpSendFailed (retry : Nat)
  /-- src/peer/manager.rs:89 (`handshake`) and 103 -/
  | noMessage (handshake : Bool)
  /-- src/peer/manager.rs:120-123 -/
  | startDownload (peerId : Bytes) (idx : Nat) (endpoint : Bytes)
  /-- src/peer/manager.rs:124-127 -/
  | completedDownload (peerId : Bytes) (idx : Nat) (endpoint : Bytes)
  /-- src/peer/mod.rs:79, 83, 87, 91, 95 and 99, by the id of the message -/
  | gotMessage (peerId : Bytes) (id : UInt8)
  /-- src/peer/mod.rs:118-122 -/
  | notManaged (peerId : Bytes) (m : Message)
  /-- src/peer/stream.rs:151 -/
  | writeFailed (err : IoError) (buffer : Bytes)
  /-- src/messages/extension.rs:38 -/
  | extensionBad (err : DecoderError)
  /-- src/messages/extension.rs:103 -/
  | noExtensionValue (v : Metainfo)
  /-- src/torrent/info.rs:62 -/
  | cacheFound (path : Bytes)
  /-- src/torrent/info.rs:65-68 -/
  | cacheUnreadable (err : IoError) (path : Bytes)
  /-- src/torrent/info.rs:82-85 -/
  | cacheUnsaved (err : IoError) (path : Bytes)
  /-- src/torrent/writer.rs:25 -/
  | pieceWritten (idx : Nat)

namespace LogRec

/-- src/peer/mod.rs:79, 83, 87, 91, 95, 99: what a message is called. -/
def messageName (id : UInt8) : Bytes :=
  if id = 0 then b!"CHOKE" else if id = 1 then b!"UNCHOKE" else if id = 2 then b!"BITFIELD" else if id = 5 then b!"??"
  else if id = 19 then b!"HANDSHAKE" else b!"EXTENSION"

/-- `record.args()`. -/
def args (shown : Nat → Bool) : LogRec → Bytes
  | .notText pos => b!"Error during string conversion at position " ++ decimal pos
  | .notNumber pos => b!"Error during integer conversion at position " ++ decimal pos
  | .peersFound n tracker => b!"Found " ++ decimal n ++ b!" peers from tracker " ++ tracker.debug shown
  | .udpSendFailed retry => b!"Send udp connect packet failed, retry number " ++ decimal retry
  | .noMessage _ => b!"No message available to read"
  | .startDownload p i e => b!"Start download by " ++ debugStr shown p ++ b!" piece " ++ decimal i ++ b!" from peer " ++ debugStr shown e
  | .completedDownload p i e => b!"Completed downloadby " ++ debugStr shown p ++ b!" for piece " ++ decimal i ++ b!" from peer " ++ debugStr shown e
  | .gotMessage p id => b!"Peer " ++ debugStr shown p ++ b!" get a " ++ messageName id ++ b!" message"
  | .notManaged p m => b!"Peer " ++ debugStr shown p ++ b!" message content type not managed for: " ++ m.debug shown
  | .writeFailed err buffer => b!"Error " ++ err.debug shown ++ b!" in writing buffer " ++ debugBytes buffer
  | .extensionBad err => debugStr shown err.display
  | .noExtensionValue v => b!"No extension value found from " ++ v.debug shown
  | .cacheFound path => b!"Torrent info found in file: " ++ debugStr shown path
  | .cacheUnreadable err path => b!"Caught error " ++ err.debug shown ++ b!" while reading torrent info from file: " ++ debugStr shown path
  | .cacheUnsaved err path => b!"Caught error " ++ err.debug shown ++ b!" while saving the info to file " ++ debugStr shown path
  | .pieceWritten idx => b!"Completed write to filesystem for piece " ++ decimal idx

/-- `record.file()` and `record.line()`. -/
def place : LogRec → Bytes × Nat
  | .notText _ => (b!"src/bencode/decode.rs", 52)
  | .notNumber _ => (b!"src/bencode/decode.rs", 63)
  | .peersFound .. => (b!"src/tracker/mod.rs", 41)
  | .udpSendFailed _ => (b!"src/tracker/udp_tracker.rs", 72)
  | .noMessage handshake => (b!"src/peer/manager.rs", if handshake then 89 else 103)
  | .startDownload .. => (b!"src/peer/manager.rs", 120)
  | .completedDownload .. => (b!"src/peer/manager.rs", 124)
  | .gotMessage _ id => (b!"src/peer/mod.rs",
      if id = 0 then 79 else if id = 1 then 83 else if id = 2 then 87 else if id = 5 then 91 else if id = 19 then 95 else 99)
  | .notManaged .. => (b!"src/peer/mod.rs", 118)
  | .writeFailed .. => (b!"src/peer/stream.rs", 151)
  | .extensionBad _ => (b!"src/messages/extension.rs", 38)
  | .noExtensionValue _ => (b!"src/messages/extension.rs", 103)
  | .cacheFound _ => (b!"src/torrent/info.rs", 62)
  | .cacheUnreadable .. => (b!"src/torrent/info.rs", 65)
  | .cacheUnsaved .. => (b!"src/torrent/info.rs", 82)
  | .pieceWritten _ => (b!"src/torrent/writer.rs", 25)

/-- `record.level()`. -/
def level : LogRec → Bytes
  | .notText _ | .notNumber _ | .udpSendFailed _ | .writeFailed .. | .extensionBad _ | .cacheUnreadable .. | .cacheUnsaved .. => b!"ERROR"
  | .noMessage _ => b!"DEBUG"
  | _ => b!"INFO"

end LogRec

/-- The local time, to the millisecond (years from 0 to 9999). -/
structure LogTime where
  year : Nat
  month : Nat
  day : Nat
  hour : Nat
  minute : Nat
  second : Nat
  milli : Nat

/-- A number with leading zeros, `k` digits at least. -/
def padDecimal (k n : Nat) : Bytes := List.replicate (k - (decimal n).length) 48 ++ decimal n

/-- src/main.rs:58: `%Y-%m-%dT%H:%M:%S%.3f`. -/
def LogTime.text (t : LogTime) : Bytes :=
  padDecimal 4 t.year ++ b!"-" ++ padDecimal 2 t.month ++ b!"-" ++ padDecimal 2 t.day ++ b!"T" ++ padDecimal 2 t.hour ++ b!":" ++
    padDecimal 2 t.minute ++ b!":" ++ padDecimal 2 t.second ++ b!"." ++ padDecimal 3 t.milli

/-- src/main.rs:52-62: the line of a record, with the newline of `writeln!`. -/
def LogRec.line (shown : Nat → Bool) (t : LogTime) (r : LogRec) : Bytes :=
  r.place.1 ++ b!":" ++ decimal r.place.2 ++ b!" " ++ t.text ++ b!" [" ++ r.level ++ b!"] - " ++ r.args shown ++ [10]

end RustBit
