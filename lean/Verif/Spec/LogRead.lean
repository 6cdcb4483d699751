/-
What a record of the log must be like to be readable: its texts are texts.
-/
import Verif.Spec.Text
import Verif.Model.LogText

namespace Spec
open RustBit

/-- The texts in a message. -/
def TextMessage (m : Message) : Prop :=
  match m.content with
  | .extension e => ∀ x ∈ e.extensions, Text x.1
  | _ => True

/-- The texts in an error of the operating system or of the library. -/
def TextError : IoError → Prop
  | .os _ _ m => Text m
  | .simple _ m => Text m
  | .json m _ _ => Text m

/-- The texts in a URL. -/
def TextUrl (u : UrlView) : Prop :=
  Text u.scheme ∧ Text u.username ∧ (∀ x, u.password = some x → Text x) ∧ (∀ x, u.host = some (.domain x) → Text x) ∧ Text u.path ∧
    (∀ x, u.query = some x → Text x) ∧ ∀ x, u.fragment = some x → Text x

/-- What Rust calls strings are texts, and the messages that are named are those that have a name. -/
def TextRecord : LogRec → Prop
  | .peersFound _ u => TextUrl u
  | .startDownload p _ e | .completedDownload p _ e => Text p ∧ Text e
  | .gotMessage p id => Text p ∧ id ∈ [0, 1, 2, 5, 19, 20]
  | .notManaged p m => Text p ∧ TextMessage m
  | .writeFailed err _ => TextError err
  | .extensionBad err => Text err.display
  | .noExtensionValue v => KeysText v
  | .cacheFound path => Text path
  | .cacheUnreadable err path | .cacheUnsaved err path => TextError err ∧ Text path
  | _ => True

/-- Something went wrong: with data, with sending, or with the cache. -/
def Fault : LogRec → Prop
  | .notText _ | .notNumber _ | .extensionBad _ => True
  | .udpSendFailed _ | .writeFailed .. => True
  | .cacheUnreadable .. | .cacheUnsaved .. => True
  | _ => False

/-- What a record is about, leaving out its details. -/
inductive Topic where
  | notText | notNumber | extensionBad | noExtensionValue
  | peersFound | udpSendFailed
  | noHandshake | noMessage | message (id : UInt8) | notManaged | writeFailed
  | pieceStarted | pieceCompleted | pieceWritten
  | cacheFound | cacheUnreadable | cacheUnsaved
  deriving DecidableEq

/-- What a record is about. -/
def topic : LogRec → Topic
  | .notText _ => .notText
  | .notNumber _ => .notNumber
  | .peersFound .. => .peersFound
  | .udpSendFailed _ => .udpSendFailed
  | .noMessage true => .noHandshake
  | .noMessage false => .noMessage
  | .startDownload .. => .pieceStarted
  | .completedDownload .. => .pieceCompleted
  | .gotMessage _ id => .message id
  | .notManaged .. => .notManaged
  | .writeFailed .. => .writeFailed
  | .extensionBad _ => .extensionBad
  | .noExtensionValue _ => .noExtensionValue
  | .cacheFound _ => .cacheFound
  | .cacheUnreadable .. => .cacheUnreadable
  | .cacheUnsaved .. => .cacheUnsaved
  | .pieceWritten _ => .pieceWritten

end Spec
