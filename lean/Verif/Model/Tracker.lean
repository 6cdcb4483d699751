/-
Model of src/tracker/*.rs, src/actors/tracker.rs and src/common/generator.rs. The network is an arbitrary
schedule of outcomes.
-/
import Verif.Model.Peer

namespace RustBit

/-! ### `urlencoding` -/

/-- Bytes the `urlencoding` crate leaves as they are: ASCII letters, digits and `-._~`. -/
def urlSafe (b : UInt8) : Bool :=
  (48 ≤ b && b ≤ 57) || (65 ≤ b && b ≤ 90) || (97 ≤ b && b ≤ 122) ||
    b == c!"-" || b == c!"." || b == c!"_" || b == c!"~"

/-- Upper-case hexadecimal digit of a number below 16. -/
def hexUpper (n : UInt8) : UInt8 := if n < 10 then 48 + n else 55 + n

/-- `urlencoding::encode_binary`: every other byte becomes `%XX`. -/
def percentEncode : Bytes → Bytes
  | [] => []
  | b :: t => if urlSafe b then b :: percentEncode t
    else c!"%" :: hexUpper (b >>> 4) :: hexUpper (b &&& 15) :: percentEncode t

/-! ### peer_endpoint.rs -/

/-- src/tracker/peer_endpoint.rs:4 `struct PeerEndpoint(String, u16)`. -/
structure PeerEndpoint where
  ip : Bytes
  port : Nat
  deriving Repr, DecidableEq

namespace PeerEndpoint

/-- src/tracker/peer_endpoint.rs:10-17, the body of the loop: `{:?}` of a `u8` is its decimal notation. The indices
are those of a 6-byte chunk. -/
def ofChunk (c : Bytes) : PeerEndpoint :=
  ⟨decimal (c.getD 0 0).toNat ++ c!"." :: decimal (c.getD 1 0).toNat ++ c!"." :: decimal (c.getD 2 0).toNat ++
      c!"." :: decimal (c.getD 3 0).toNat,
    (c.getD 4 0).toNat * 256 + (c.getD 5 0).toNat⟩

/-- src/tracker/peer_endpoint.rs:7-21 `from_bytes`. -/
def fromBytes (bytes : Bytes) : List PeerEndpoint := (chunksExact 6 bytes).map ofChunk

/-- src/tracker/peer_endpoint.rs:30-32 `endpoint`. -/
def endpoint (p : PeerEndpoint) : Bytes := p.ip ++ c!":" :: decimal p.port

end PeerEndpoint

/-! ### `str::parse::<SocketAddr>()` (`core::net::parser`), IPv4 form -/

/-- `Parser::read_number::<T>(10, max_digits, allow_zero_prefix)`, `limit` being one more than the largest value
of `T`: the number and the rest of the input. -/
def readNumber (limit : Nat) (maxDigits : Option Nat) (allowZeroPrefix : Bool) (s : Bytes) : Option (Nat × Bytes) :=
  let ds := s.takeWhile isDigit
  let n := ds.foldl (fun acc b => acc * 10 + (b.toNat - 48)) 0
  if ds = [] then none
  else if (maxDigits.map (fun k => decide (k < ds.length))).getD false then none
  else if limit ≤ n then none
  else if !allowZeroPrefix && ds.head? == some 48 && decide (1 < ds.length) then none
  else some (n, s.dropWhile isDigit)

/-- `Parser::read_given_char`. -/
def readChar (c : UInt8) : Bytes → Option Bytes
  | [] => none
  | b :: t => if b = c then some t else none

/-- `SocketAddrV4::from_str`, which `SocketAddr::from_str` tries first; the IPv6 form starts with `[` and is not
modelled. -/
def parseSocketV4 (s : Bytes) : Option (List Nat × Nat) := do
  let (a, s) ← readNumber 256 (some 3) false s
  let s ← readChar c!"." s
  let (b, s) ← readNumber 256 (some 3) false s
  let s ← readChar c!"." s
  let (c, s) ← readNumber 256 (some 3) false s
  let s ← readChar c!"." s
  let (d, s) ← readNumber 256 (some 3) false s
  let s ← readChar c!":" s
  let (port, s) ← readNumber 65536 none true s
  if s = [] then some ([a, b, c, d], port) else none

/-- src/peer/stream.rs:60-65: what `StreamInterface::connect(endpoint, false)` makes of an endpoint; the TCP connection to
the address is refused (`none`) or behaves as the schedule says. -/
def dialOf (endpoint : Bytes) (tcp : List Nat × Nat → Option Net) : Dial :=
  match parseSocketV4 endpoint with
  | none => .unparsable
  | some a => match tcp a with
    | none => .refused
    | some net => .connected net

/-! ### udp_tracker.rs -/

/-- src/tracker/udp_tracker.rs:6-19 `enum UdpTrackerError`. -/
inductive UdpTrackerError where
  | postMissing
  | hostnameMissing
  | wrongResponseSize
  | noConnectionEstablished
  | recieveError
  | sendError
  deriving Repr, DecidableEq

/-- Outcome of one `recv_from`: a datagram, an error, or nothing ever arrives (there is no timeout). -/
inductive UdpRecv where
  | datagram (b : Bytes)
  | failed
  | never

/-- The UDP socket: whether binding and connecting succeed, the outcome of the `k`-th send and of the `k`-th receive. -/
structure UdpNet where
  bind : Bool
  connect : Bytes → Bool
  send : Nat → Bool
  recv : Nat → UdpRecv

/-- What has happened on the socket: the messages handed to `send`, in order, and the number of receives. -/
structure UdpState where
  sent : List Bytes
  recvs : Nat
  deriving Repr, DecidableEq

/-- src/tracker/udp_tracker.rs:92-97 `send_upd_packet`. -/
def sendUdp (net : UdpNet) (s : UdpState) (message : Bytes) : Res UdpTrackerError Unit × UdpState :=
  (if net.send s.sent.length then .ok () else .err .sendError, { s with sent := s.sent ++ [message] })

/-- src/tracker/udp_tracker.rs:83-90 `read_upd_packet` into a buffer: the size received and the buffer; a datagram that is too
long is cut off. -/
def readUdp (net : UdpNet) (s : UdpState) (buf : Bytes) : Res UdpTrackerError (Nat × Bytes) × UdpState :=
  (match net.recv s.recvs with
    | .datagram b => .ok (min b.length buf.length, b.take buf.length ++ buf.drop b.length)
    | .failed => .err .recieveError
    | .never => .hang, { s with recvs := s.recvs + 1 })

/-- src/tracker/udp_tracker.rs:99-104 `make_connection_message`. -/
def makeConnectionMessage (transactionId : Bytes) : Bytes :=
  [0x00, 0x00, 0x04, 0x17, 0x27, 0x10, 0x19, 0x80] ++ [0x00, 0x00, 0x00, 0x00] ++ transactionId

/-- src/tracker/udp_tracker.rs:106-140 `make_announce_message`. -/
def makeAnnounceMessage (transactionId connectionId peerId infoHash : Bytes) : Bytes :=
  let action := beU32 1
  let downloaded : Bytes := [0, 0, 0, 0, 0, 0, 0, 0]
  let left : Bytes := [0, 0, 0, 0, 0, 0, 0, 0]
  let uploaded : Bytes := [0, 0, 0, 0, 0, 0, 0, 0]
  let event : Bytes := [0, 0, 0, 0]
  let ip : Bytes := [0, 0, 0, 0]
  let key : Bytes := [0, 0, 0, 0]
  let numWant : Bytes := [0xff, 0xff, 0xff, 0xff]
  let port : Bytes := [0x1f, 0x40]
  [connectionId, action, transactionId, infoHash, peerId, downloaded, left, uploaded, event, ip, key, numWant,
    port].flatten

/-- src/tracker/udp_tracker.rs:70-80, the retry loop of `connect_to_tracker` with the given number of retries left. -/
def connectLoop (net : UdpNet) (message : Bytes) : Nat → UdpState → Bytes → Res UdpTrackerError Bytes × UdpState
  | 0, s, _ => (.err .noConnectionEstablished, s)
  | n + 1, s, buf =>
    let (_, s) := sendUdp net s message
    match readUdp net s buf with
    | (.ok (_, buf), s) => (sliceFrom buf 8, s)
    | (.err _, s) => connectLoop net message n s buf
    | (.panic, s) => (.panic, s)
    | (.hang, s) => (.hang, s)

/-- src/tracker/udp_tracker.rs:62-81 `connect_to_tracker`: retries 1, 2, 3, 4. -/
def connectToTracker (net : UdpNet) (transactionId : Bytes) (s : UdpState) : Res UdpTrackerError Bytes × UdpState :=
  connectLoop net (makeConnectionMessage transactionId) 4 s (List.replicate 16 0)

/-- src/tracker/udp_tracker.rs:42. -/
def transactionId : Bytes := [0x00, 0x01, 0x19, 0x9e]

/-- The parts of a `url::Url` that are used. -/
structure TrackerUrl where
  scheme : Bytes
  hostStr : Option Bytes
  port : Option Nat
  asStr : Bytes
  deriving Repr, DecidableEq

/-- src/tracker/udp_tracker.rs:53-59: the announce answer, in a buffer of 4000 bytes. -/
def readAnnounce (net : UdpNet) (s : UdpState) : Res UdpTrackerError Bytes × UdpState :=
  match readUdp net s (List.replicate 4000 0) with
  | (.ok (size, buf), s) => if 26 < size then (slice buf 20 size, s) else (.err .wrongResponseSize, s)
  | (.err e, s) => (.err e, s)
  | (.panic, s) => (.panic, s)
  | (.hang, s) => (.hang, s)

/-- src/tracker/udp_tracker.rs:42-59: `call` once the socket is connected. -/
def udpExchange (net : UdpNet) (infoHash peerId : Bytes) (s : UdpState) : Res UdpTrackerError Bytes × UdpState :=
  match connectToTracker net transactionId s with
  | (.ok connectionId, s) =>
    match sendUdp net s (makeAnnounceMessage transactionId connectionId peerId infoHash) with
    | (.ok (), s) => readAnnounce net s
    | (.err e, s) => (.err e, s)
    | (.panic, s) => (.panic, s)
    | (.hang, s) => (.hang, s)
  | r => r

/-- src/tracker/udp_tracker.rs:21-60 `call`. -/
def udpCall (net : UdpNet) (infoHash peerId : Bytes) (url : TrackerUrl) : Res UdpTrackerError Bytes × UdpState :=
  let s : UdpState := ⟨[], 0⟩
  if !net.bind then (.panic, s)
  else match url.hostStr, url.port with
    | none, _ => (.err .hostnameMissing, s)
    | some _, none => (.err .postMissing, s)
    | some h, some p => if net.connect (h ++ c!":" :: decimal p) then udpExchange net infoHash peerId s else (.panic, s)

/-! ### tcp_tracker.rs -/

/-- src/tracker/tcp_tracker.rs:11-20 `enum TcpTrackerError`. -/
inductive TcpTrackerError where
  | metainfo (e : MetainfoError)
  | decoder (e : DecoderError)
  | connection (url : Bytes)
  | bufferReading
  deriving Repr, DecidableEq

/-- Outcome of the HTTP GET of a URL: the call fails, reading the body fails, or the body. -/
inductive HttpGet where
  | failed
  | broken
  | body (b : Bytes)

/-- src/tracker/tcp_tracker.rs:25-30: the URL fetched. -/
def announceUrl (url : TrackerUrl) (infoHash peerId : Bytes) : Bytes :=
  url.asStr ++ b!"?info_hash=" ++ percentEncode infoHash ++ b!"&peer_id=" ++ peerId

/-- src/tracker/tcp_tracker.rs:22-41 `call`. -/
def tcpCall (http : Bytes → HttpGet) (infoHash peerId : Bytes) (url : TrackerUrl) : Res TcpTrackerError Bytes :=
  match http (announceUrl url infoHash peerId) with
  | .failed => .err (.connection (announceUrl url infoHash peerId))
  | .broken => .err .bufferReading
  | .body b => do
    let (m, _) ← (Decoder.decode b).mapErr .decoder
    (m.getBytesFromDict b!"peers").mapErr .metainfo

/-- src/tracker/tcp_tracker.rs:46-50: the header fields set. `ureq` adds fields of its own only for names that have not been set. -/
def trackerHeaders : List (Bytes × Bytes) :=
  [(b!"Accept-Encoding", b!"gzip, deflate, br"), (b!"Accept", b!"*/*"), (b!"Connection", b!"keep-alive"),
    (b!"User-Agent", b!"PostmanRuntime/7.29.0"), (b!"Host", b!"192.168.1.2")]

/-- What an HTTP server answers in the end (redirections followed): the status, the content coding if one is named, and the body as transferred. -/
structure HttpAnswer where
  status : Nat
  coding : Option Bytes
  raw : Bytes
  deriving Repr, DecidableEq

/-- src/tracker/tcp_tracker.rs:44-52, 32-37: what `ureq` (2.4, with its default features) makes of the answer, or of none within 400 ms. A status from 400
on is an error; the coding `gzip` is undone while the body is read; any other coding is not looked at. -/
def ureqGet (gunzip : Bytes → Option Bytes) : Option HttpAnswer → HttpGet
  | none => .failed
  | some a =>
    if 400 ≤ a.status then .failed
    else if a.coding = some b!"gzip" then match gunzip a.raw with
      | some b => .body b
      | none => .broken
    else .body a.raw

/-! ### mod.rs -/

/-- src/tracker/mod.rs:18-25 `enum TrackerError`. -/
inductive TrackerError where
  | tcpTracker (e : TcpTrackerError)
  | udpTracker (e : UdpTrackerError)
  | protocolNotSupported (scheme : Bytes)
  deriving Repr, DecidableEq

/-- What a call did on the network: the URLs fetched and the UDP messages sent. -/
structure Traffic where
  fetched : List Bytes
  sent : List Bytes
  deriving Repr, DecidableEq

/-- src/tracker/mod.rs:27-44 `get_peers_by_tracker`, `peerId` being the identifier generated on line 31. -/
def getPeersByTracker (udp : UdpNet) (http : Bytes → HttpGet) (peerId : Bytes) (url : TrackerUrl) (infoHash : Bytes) :
    Res TrackerError (List PeerEndpoint) × Traffic :=
  if url.scheme = b!"http" then
    ((tcpCall http infoHash peerId url).mapErr TrackerError.tcpTracker >>= fun b => .ok (PeerEndpoint.fromBytes b),
      ⟨[announceUrl url infoHash peerId], []⟩)
  else if url.scheme = b!"udp" then
    match udpCall udp infoHash peerId url with
    | (r, s) => (r.mapErr TrackerError.udpTracker >>= fun b => .ok (PeerEndpoint.fromBytes b), ⟨[], s.sent⟩)
  else (.err (.protocolNotSupported url.scheme), ⟨[], []⟩)

/-! ### src/actors/tracker.rs -/

/-- src/tracker/peer_endpoint.rs:23-28 `is_reachable`; `tcp` says whether a connection to an address can be made
at this moment. -/
def isReachable (tcp : List Nat × Nat → Bool) (endpoint : Bytes) : Bool :=
  match parseSocketV4 endpoint with
  | some a => tcp a
  | none => false

/-- src/actors/tracker.rs:34-38: the peers for which `PeerFound` is sent; the `k`-th peer is tried at moment `k`. -/
def forwardLoop (tcp : Nat → List Nat × Nat → Bool) : Nat → List PeerEndpoint → List PeerEndpoint
  | _, [] => []
  | k, p :: ps => if isReachable (tcp k) p.endpoint then p :: forwardLoop tcp (k + 1) ps else forwardLoop tcp (k + 1) ps

/-- src/tracker/peer_endpoint.rs:23-28, src/actors/tracker.rs:34-38: how many milliseconds are spent on trying the peers, one after the other, the attempt
to connect to the `k`-th one taking `takes k` milliseconds if it is not given up after 50. An endpoint that cannot be parsed is not tried. -/
def tryMillis (takes : Nat → Nat) : Nat → List PeerEndpoint → Nat
  | _, [] => 0
  | k, p :: ps => (if (parseSocketV4 p.endpoint).isSome then min (takes k) 50 else 0) + tryMillis takes (k + 1) ps

/-- src/actors/tracker.rs:27-45 `Handler<TorrentRegistered>`: the `PeerFound` messages sent to the torrent. A panic or hang of
the spawned future sends nothing. -/
def trackerHandle (udp : UdpNet) (http : Bytes → HttpGet) (tcp : Nat → List Nat × Nat → Bool) (peerId : Bytes)
    (url : TrackerUrl) (infoHash : Bytes) : List PeerEndpoint :=
  match getPeersByTracker udp http peerId url infoHash with
  | (.ok peers, _) => forwardLoop tcp 0 peers
  | _ => []

/-- src/actors/trackers_interface.rs:12-31: the trackers, as (address, port). -/
def builtinTrackers : List (Bytes × Nat) :=
  [(b!"93.158.213.92", 1337), (b!"102.223.180.235", 6969), (b!"23.134.88.6", 1337), (b!"193.189.100.187", 6969),
    (b!"185.243.218.213", 80), (b!"91.216.110.52", 451), (b!"208.83.20.20", 6969), (b!"23.157.120.14", 6969),
    (b!"156.234.201.18", 80), (b!"185.102.219.163", 6969), (b!"185.50.159.149", 6969), (b!"209.141.59.16", 6969),
    (b!"38.7.201.142", 6969), (b!"73.170.204.100", 6969), (b!"176.31.250.174", 6969), (b!"82.156.24.219", 6969),
    (b!"83.102.180.21", 80), (b!"185.230.4.150", 1337)]

/-- src/actors/trackers_interface.rs:12-40: their URLs `udp://<address>:<port>/announce`. -/
def builtinUrls : List TrackerUrl := builtinTrackers.map fun (h, p) =>
  ⟨b!"udp", some h, some p, b!"udp://" ++ h ++ c!":" :: decimal p ++ b!"/announce"⟩

end RustBit
