/-
Vocabulary for what the client says to a peer.
-/
import Verif.Spec.Download
import Verif.Spec.Messages

namespace Spec
open RustBit

/-- The messages that open a connection: a handshake with the bit for BEP 10 set, "interested", and an extension handshake that
numbers the extensions `ut_metadata` and `ut_pex` 1 and 2 and gives a size of the metadata. -/
def FirstWords (hash id : Bytes) (size : Nat) (w : List Bytes) : Prop :=
  ∃ hs int ext, w = [hs, int, ext] ∧ IsHandshake [0, 0, 0, 0, 0, 0x10, 0, 0] hash id hs ∧ IsFrame 2 [] int ∧
    IsExtension 0 [(b!"m", .dict [(b!"ut_metadata", .int 1), (b!"ut_pex", .int 2)]), (b!"metadata_size", .int size)] [] ext

/-- Everything said to a peer, in order: the opening messages or some of the first of them, or the opening messages and at most `n`
requests `R`. -/
def Talk (hash id : Bytes) (size n : Nat) (R : Bytes → Prop) (w : List Bytes) : Prop :=
  ∃ o, FirstWords hash id size o ∧ (w <+: o ∨ ∃ reqs, w = o ++ reqs ∧ reqs.length ≤ n ∧ ∀ x ∈ reqs, R x)

/-- The number the peer has last given to the extension `ut_metadata`: that of its last extension message with a metadata size. -/
def metadataId (log : List Ev) : Option UInt8 :=
  log.foldl (fun r e => match e with
    | .got m => match m.content with
      | .extension x => if x.metadataSize.isSome then mapGet x.extensions b!"ut_metadata" else r
      | _ => r
    | .sent _ => r) none

end Spec
