/-
What a reader of the log learns about an attempt with a peer.
-/
import Verif.Spec.Download
import Verif.Model.LogCalls

namespace Spec
open RustBit

/-- The messages that came, in order. -/
def came (history : List Ev) : List Message :=
  history.filterMap fun e => match e with
    | .got m => some m
    | .sent _ => none

/-- The messages the log says came: from whom (the id we go by), and their ids. -/
def named (log : List LogRec) : List (Bytes × UInt8) :=
  log.filterMap fun r => match r with
    | .gotMessage p id => some (p, id)
    | _ => none

/-- The messages the log shows in full. -/
def printed (log : List LogRec) : List (Bytes × Message) :=
  log.filterMap fun r => match r with
    | .notManaged p m => some (p, m)
    | _ => none

/-- What the log says could not be sent. -/
def unsent (log : List LogRec) : List Bytes :=
  log.filterMap fun r => match r with
    | .writeFailed _ b => some b
    | _ => none

/-- The downloads of pieces the log says were started: by whom, which piece, from where. -/
def started (log : List LogRec) : List (Bytes × Nat × Bytes) :=
  log.filterMap fun r => match r with
    | .startDownload p i e => some (p, i, e)
    | _ => none

/-- The downloads of pieces the log says were completed. -/
def completed (log : List LogRec) : List (Bytes × Nat × Bytes) :=
  log.filterMap fun r => match r with
    | .completedDownload p i e => some (p, i, e)
    | _ => none

/-- What the log says was wrong with extension messages. -/
def complaints (log : List LogRec) : List DecoderError :=
  log.filterMap fun r => match r with
    | .extensionBad e => some e
    | _ => none

/-- The values the log says are no numbers of extensions. -/
def noNumbers (log : List LogRec) : List Metainfo :=
  log.filterMap fun r => match r with
    | .noExtensionValue v => some v
    | _ => none

end Spec
