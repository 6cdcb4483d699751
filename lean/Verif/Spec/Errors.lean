/-
What is wrong with an input the decoder refuses, and with a decoded value that is no metadata.
-/
import Verif.Spec.BencodeRel
import Verif.Spec.InfoRel
import Verif.Model.Tracker

namespace Spec
open RustBit

/-- What is wrong: digits that are no number (none, or too many), or a key that is no text, by the position after it. -/
inductive InputFault where
  | number (digits : List UInt8)
  | key (pos : Nat)
  deriving Repr, DecidableEq

/-- The same, seen from `n` bytes before. -/
def InputFault.after (n : Nat) : InputFault → InputFault
  | .number ds => .number ds
  | .key p => .key (n + p)

/-- The bytes begin with digits, followed by something else, and the digits are not the notation of a number below 2^64. -/
def BadNumber (c ds : List UInt8) : Prop :=
  ∃ x rest, c = ds ++ x :: rest ∧ (∀ d ∈ ds, isDigit d = true) ∧ isDigit x = false ∧ (ds = [] ∨ 2 ^ 64 ≤ value ds)

mutual
/-- The first thing wrong with an input is this. -/
inductive Faulty : List UInt8 → InputFault → Prop
  | int {c ds} : BadNumber c ds → Faulty (105 :: c) (.number ds)
  | str {b c ds} : 49 ≤ b → b ≤ 57 → BadNumber (b :: c) ds → Faulty (b :: c) (.number ds)
  | list {c f} : FaultyElems c f → Faulty (108 :: c) (f.after 1)
  | dict {c f} : FaultyEntries c f → Faulty (100 :: c) (f.after 1)
inductive FaultyElems : List UInt8 → InputFault → Prop
  | inner {c f} : Faulty c f → FaultyElems c f
  | next {v bs c f} : Lenient v bs → FaultyElems c f → FaultyElems (bs ++ c) (f.after bs.length)
inductive FaultyEntries : List UInt8 → InputFault → Prop
  | number {c ds} : c.head? ≠ some 101 → BadNumber c ds → FaultyEntries c (.number ds)
  | key {k ks c} : LenientStr k ks → validUtf8 k = false → FaultyEntries (ks ++ c) (.key ks.length)
  | inner {k ks c f} : LenientStr k ks → validUtf8 k = true → Faulty c f → FaultyEntries (ks ++ c) (f.after ks.length)
  | next {k v ks bs c f} : LenientStr k ks → validUtf8 k = true → Lenient v bs → FaultyEntries c f →
      FaultyEntries (ks ++ bs ++ c) (f.after (ks.length + bs.length))
  | noValue {k ks c f} : LenientStr k ks → validUtf8 k = true → (∀ b ∈ c.head?, ¬ StartsValue b) → FaultyEntries c f →
      FaultyEntries (ks ++ c) (f.after ks.length)
end

/-- How a fault is reported: the digits, or the position after the key. -/
inductive Reports : InputFault → DecoderError → Prop
  | number {ds} : Reports (.number ds) (.badNumberDecode ds)
  | key {p} : Reports (.key p) (.badStringFromBytes p)

/-- The value read from the beginning of some bytes; nothing where no value begins. -/
inductive ReadFrom : List UInt8 → Metainfo → Prop
  | value {v bs rest} : Lenient v bs → ReadFrom (bs ++ rest) v
  | nothing {c} : (∀ b ∈ c.head?, ¬ StartsValue b) → ReadFrom c .nothing

/-- What can be asked for. -/
inductive Kind where
  | bytes | text | number | list
  deriving Repr, DecidableEq

/-- How a kind is named. -/
def Kind.name : Kind → List UInt8
  | .bytes => b!"String"
  | .text => b!"String"
  | .number => b!"Integer"
  | .list => b!"List"

/-- How a value is named. -/
inductive NamedAs : Metainfo → List UInt8 → Prop
  | integer {n} : NamedAs (.integer n) b!"Integer"
  | list {l} : NamedAs (.list l) b!"List"
  | string {s} : NamedAs (.string s) b!"String"
  | dictionary {d} : NamedAs (.dictionary d) b!"Dictionary"
  | nothing : NamedAs .nothing b!"Nothing"

/-- What is wrong with a value when something of this kind is wanted. -/
inductive WrongValue : Kind → Metainfo → MetainfoError → Prop
  | kind {k v n} : NamedAs v n → n ≠ k.name → WrongValue k v (.badMetainfoMatch k.name n)
  | text {s} : ¬ Text s → WrongValue .text (.string s) .utf8ConversionError

/-- What is wrong with a value when an entry with this key and of this kind is wanted in it. -/
inductive Wrong : Kind → List UInt8 → Metainfo → MetainfoError → Prop
  | dictionary {k key v n} : NamedAs v n → n ≠ b!"Dictionary" → Wrong k key v (.badMetainfoMatch b!"Dictionary" n)
  | missing {k key d} : (∀ e ∈ d, e.1 ≠ key) → Wrong k key (.dictionary d) (.noKeyInDictionary key)
  | value {k key d v e} : At d key v → WrongValue k v e → Wrong k key (.dictionary d) e

/-- What is wrong first with a file entry: its length, its path, or the first part of the path that is no text. -/
inductive WrongFile : Metainfo → MetainfoError → Prop
  | length {m e} : Wrong .number b!"length" m e → WrongFile m e
  | path {d n e} : At d b!"length" (.integer n) → Wrong .list b!"path" (.dictionary d) e → WrongFile (.dictionary d) e
  | part {d n v rest e} {ps : List (List UInt8)} : At d b!"length" (.integer n) → At d b!"path" (.list (ps.map .string ++ v :: rest)) → (∀ p ∈ ps, Text p) →
      WrongValue .text v e → WrongFile (.dictionary d) e

/-- What is wrong first with metadata: the pieces, the piece length, or the name. -/
inductive WrongInfo : Metainfo → MetainfoError → Prop
  | pieces {m e} : Wrong .bytes b!"pieces" m e → WrongInfo m e
  | pieceLength {d s e} : At d b!"pieces" (.string s) → Wrong .number b!"piece length" (.dictionary d) e → WrongInfo (.dictionary d) e
  | name {d s n e} : At d b!"pieces" (.string s) → At d b!"piece length" (.integer n) → Wrong .text b!"name" (.dictionary d) e →
      WrongInfo (.dictionary d) e

/-- What is wrong with bytes that should be metadata. -/
inductive WrongBytes : List UInt8 → InfoError → Prop
  | decoder {c x e} : Faulty c x → Reports x e → WrongBytes c (.decoderError e)
  | metainfo {c m e} : ReadFrom c m → WrongInfo m e → WrongBytes c (.metainfoError e)

/-- What went wrong when asking a UDP tracker. The socket can be bound, and connected if the URL has a host and a port. -/
inductive UdpWrong (net : UdpNet) (url : TrackerUrl) : UdpTrackerError → Prop
  | host : url.hostStr = none → UdpWrong net url .hostnameMissing
  | port {h} : url.hostStr = some h → url.port = none → UdpWrong net url .postMissing
  | connection {h p} : url.hostStr = some h → url.port = some p → (∀ i, i < 4 → net.recv i = .failed) → UdpWrong net url .noConnectionEstablished
  | send {h p j c} : url.hostStr = some h → url.port = some p → j < 4 → (∀ i, i < j → net.recv i = .failed) → net.recv j = .datagram c →
      net.send (j + 1) = false → UdpWrong net url .sendError
  | receive {h p j c} : url.hostStr = some h → url.port = some p → j < 4 → (∀ i, i < j → net.recv i = .failed) → net.recv j = .datagram c →
      net.send (j + 1) = true → net.recv (j + 1) = .failed → UdpWrong net url .recieveError
  | size {h p j c d} : url.hostStr = some h → url.port = some p → j < 4 → (∀ i, i < j → net.recv i = .failed) → net.recv j = .datagram c →
      net.send (j + 1) = true → net.recv (j + 1) = .datagram d → d.length ≤ 26 → UdpWrong net url .wrongResponseSize

/-- What went wrong when asking an HTTP tracker. -/
inductive HttpWrong (http : List UInt8 → HttpGet) (url : List UInt8) : TcpTrackerError → Prop
  | failed : http url = .failed → HttpWrong http url (.connection url)
  | broken : http url = .broken → HttpWrong http url .bufferReading
  | decoder {b x e} : http url = .body b → Faulty b x → Reports x e → HttpWrong http url (.decoder e)
  | metainfo {b m e} : http url = .body b → ReadFrom b m → Wrong .bytes b!"peers" m e → HttpWrong http url (.metainfo e)

end Spec
