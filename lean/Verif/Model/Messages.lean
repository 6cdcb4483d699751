/-
Model of src/messages/{mod,bitfield,extension,handshake,interested,request}.rs.
-/
import Verif.Model.Bencode

namespace RustBit

/-! ### request.rs -/

/-- src/messages/request.rs:2-6 `struct RequestMessage` (`u32` fields are numbers below 2^32). -/
structure RequestMessage where
  pieceIndex : Nat
  blockIndex : Nat
  blockData : Bytes
  deriving Repr, DecidableEq

namespace RequestMessage

/-- src/messages/request.rs:17-28 `from_bytes`: the slices panic when there are fewer than 8 bytes. -/
def fromBytes {ε : Type} (bytes : Bytes) : Res ε RequestMessage := do
  let p ← slice bytes 0 4
  let b ← slice bytes 4 8
  let d ← sliceFrom bytes 8
  .ok { pieceIndex := ofBe p, blockIndex := ofBe b, blockData := d }

/-- src/messages/request.rs:34-41 `as_bytes`. -/
def asBytes (r : RequestMessage) : Bytes := beU32 r.pieceIndex ++ beU32 r.blockIndex ++ r.blockData

end RequestMessage

/-! ### bitfield.rs -/

/-- src/messages/bitfield.rs:20-29: the eight booleans pushed for one byte (inner loop, lines 21-28). -/
def byteBits (b : UInt8) : List Bool :=
  [0, 1, 2, 3, 4, 5, 6, 7].map fun offset => decide (((128 : UInt8) >>> offset) &&& b > 0)

/-- src/messages/bitfield.rs:17-31 `get_bitfield_as_bit_vector`. -/
def bitVector (bitfield : Bytes) : List Bool := bitfield.flatMap byteBits

/-! ### handshake.rs -/

/-- src/messages/handshake.rs:2-8 `struct HandshakeMessage`. -/
structure HandshakeMessage where
  protocolIdentifierLength : UInt8
  protocolIdentifier : Bytes
  reservedBytes : Bytes
  infoHash : Bytes
  peerId : Bytes
  deriving Repr, DecidableEq

namespace HandshakeMessage

/-- src/messages/handshake.rs:11-19 `new`. -/
def new (infoHash peerId : Bytes) : HandshakeMessage :=
  { protocolIdentifierLength := 0x13
    protocolIdentifier := b!"BitTorrent protocol"
    reservedBytes := [0x00, 0x00, 0x00, 0x00, 0x00, 0x10, 0x00, 0x00]
    infoHash, peerId }

/-- src/messages/handshake.rs:21-29 `from_bytes`: panics when there are fewer than 68 bytes. -/
def fromBytes {ε : Type} (bytes : Bytes) : Res ε HandshakeMessage := do
  let l ← index bytes 0
  let p ← slice bytes 1 20
  let r ← slice bytes 20 28
  let h ← slice bytes 28 48
  let i ← slice bytes 48 68
  .ok { protocolIdentifierLength := l, protocolIdentifier := p, reservedBytes := r, infoHash := h,
        peerId := i }

/-- src/messages/handshake.rs:35-44 `as_bytes`. -/
def asBytes (h : HandshakeMessage) : Bytes :=
  [[h.protocolIdentifierLength], h.protocolIdentifier, h.reservedBytes, h.infoHash, h.peerId].flatten

end HandshakeMessage

/-! ### extension.rs -/

/-- src/messages/extension.rs:10-17 `struct ExtensionMessage`. -/
structure ExtensionMessage where
  id : UInt8
  msgType : Option Nat
  metadataSize : Option Nat
  extensions : List (Bytes × UInt8)
  piece : Option Nat
  data : Bytes
  deriving Repr, DecidableEq

/-- src/messages/extension.rs:97-107 `build_extensions_map`: non-integers are skipped, `value as u8`
keeps the low byte. The keys of the argument are distinct, so inserting is appending. -/
def buildExtensionsMap (m : List (Bytes × Metainfo)) : List (Bytes × UInt8) :=
  m.filterMap fun (k, v) => match v with
    | .integer n => some (k, UInt8.ofNat n)
    | _ => none

/-- The value of an accessor's result under `.ok()` (the accessors never panic). -/
def okValue {ε α : Type} : Res ε α → Option α
  | .ok a => some a
  | _ => none

namespace ExtensionMessage

/-- src/messages/extension.rs:44-50: the extension map, empty when `m` is absent or no dictionary. -/
def extensionsOf (content : Metainfo) : List (Bytes × UInt8) :=
  match okValue (content.getValueFromDict b!"m") with
  | some e => buildExtensionsMap ((okValue e.getDictContent).getD [])
  | none => []

/-- src/messages/extension.rs:32-60 `from_bytes`: panics on an empty body (line 33) and when the decoder
panics. -/
def fromBytes (bytes : Bytes) : Res Bytes ExtensionMessage := do
  let body ← sliceFrom bytes 1
  let (content, parsed) ← (Decoder.decode body).mapErr (fun _ => b!"Error during decoding")
  let id ← index bytes 0
  let data ← sliceFrom bytes (parsed + 1)
  .ok { id, data
        msgType := okValue (content.getIntegerFromDict b!"msg_type")
        metadataSize := okValue (content.getIntegerFromDict b!"metadata_size")
        piece := okValue (content.getIntegerFromDict b!"piece")
        extensions := extensionsOf content }

/-- src/messages/extension.rs:74-76 `is_handshake`. -/
def isHandshake (e : ExtensionMessage) : Bool := e.metadataSize.isSome

/-- src/messages/extension.rs:78-80 `is_data`. -/
def isData (e : ExtensionMessage) : Bool := e.msgType == some 1

/-- src/messages/extension.rs:82-94 `as_bytes`: only `piece` and `msg_type` are written back. -/
def asBytes (e : ExtensionMessage) : Bytes :=
  e.id :: (EVal.map ((e.piece.map fun n => (b!"piece", EVal.usize n)).toList ++
    (e.msgType.map fun n => (b!"msg_type", EVal.usize n)).toList)).encode

end ExtensionMessage

/-! ### mod.rs -/

/-- src/messages/mod.rs:17-24 `enum ContentType` (`BitfieldMessage` is its byte string,
src/messages/bitfield.rs:1-15; `InterestedMessage` is empty, src/messages/interested.rs:1-12). -/
inductive ContentType where
  | request (r : RequestMessage)
  | extension (e : ExtensionMessage)
  | interested
  | bitfield (b : Bytes)
  | handshake (h : HandshakeMessage)
  | nothing
  deriving Repr, DecidableEq

/-- src/messages/mod.rs:27-31 `struct Message`. -/
structure Message where
  id : UInt8
  length : Nat
  content : ContentType
  deriving Repr, DecidableEq

namespace Message

/-- src/messages/mod.rs:37-44: the content of an incoming message with the given id. -/
def contentOf (body : Bytes) (id : UInt8) : Res Bytes ContentType :=
  if id = 2 then .ok .interested
  else if id = 5 then .ok (.bitfield body)
  else if id = 7 ∨ id = 6 then do
    let r ← RequestMessage.fromBytes body
    .ok (.request r)
  else if id = 20 then do
    let e ← ExtensionMessage.fromBytes body
    .ok (.extension e)
  else if id = 19 then do
    let h ← HandshakeMessage.fromBytes body
    .ok (.handshake h)
  else .ok .nothing

/-- src/messages/mod.rs:36-51 `new_raw`. -/
def newRaw (body : Bytes) (length : Nat) (id : UInt8) : Res Bytes Message := do
  let content ← contentOf body id
  .ok { id, length, content }

/-- src/messages/mod.rs:69-78 `get_content_data`. -/
def contentData (m : Message) : Bytes :=
  match m.content with
  | .nothing => []
  | .extension e => e.data
  | .request r => r.blockData
  | .interested => []
  | .bitfield b => b
  | .handshake _ => []

/-- src/messages/mod.rs:81-88: content bytes of a message that is not a handshake. -/
def contentBytes : ContentType → Bytes
  | .nothing => []
  | .extension e => e.asBytes
  | .request r => r.asBytes
  | .interested => []
  | .bitfield b => b
  | .handshake h => h.asBytes

/-- src/messages/mod.rs:80-96 `as_bytes`: a handshake is written bare (line 87). -/
def asBytes (m : Message) : Bytes :=
  match m.content with
  | .handshake h => h.asBytes
  | c => beU32 m.length ++ [m.id] ++ contentBytes c

/-- src/messages/mod.rs:98-105 `is_extension_data_message`. -/
def isExtensionData (m : Message) : Bool :=
  match m.content with
  | .extension e => e.isData
  | _ => false

/-- src/messages/mod.rs:107-109 `is_request_message`. -/
def isRequest (m : Message) : Bool :=
  match m.content with
  | .request _ => true
  | _ => false

end Message

/-- src/messages/mod.rs:117-119 `new_interested`. -/
def newInterested : Message := ⟨2, 1, .nothing⟩

/-- src/messages/mod.rs:143-150 `new_request`; the arguments are `u32`. -/
def newRequest (pieceIndex blockOffset blockLength : Nat) : Message :=
  ⟨6, 13, .request ⟨pieceIndex, blockOffset, beU32 blockLength⟩⟩

/-- src/messages/mod.rs:153-155: the payload of a metadata request. -/
def metadataRequestData (i : Nat) : Bytes :=
  b!"d8:msg_typei0e5:piecei" ++ decimal i ++ b!"ee"

/-- src/messages/mod.rs:152-162 `new_metadata`: `unwrap` on line 158 turns `Err` into a panic. -/
def newMetadata {ε : Type} (extensionId : UInt8) (i : Nat) : Res ε Message :=
  let data := metadataRequestData i
  match ExtensionMessage.fromBytes (extensionId :: data) with
  | .ok e => .ok ⟨20, data.length + 1 + 1, .extension e⟩
  | .err _ => .panic
  | .panic => .panic
  | .hang => .hang

/-- src/messages/mod.rs:163-166 `new_handshake`. -/
def newHandshake (infoHash peerId : Bytes) : Message :=
  ⟨19, 68, .handshake (HandshakeMessage.new infoHash peerId)⟩

/-- src/peer/stream.rs:156-162: the bytes of the extension handshake sent to every peer. -/
def extensionHandshakeBytes : Bytes :=
  [beU32 60, [0x14], [0x00],
    b!"d1:md11:ut_metadatai1e6:ut_pexi2ee13:metadata_sizei28282ee"].flatten

end RustBit
