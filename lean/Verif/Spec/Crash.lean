/-
Messages that end the program, messages that follow the protocol, and connections on which only whole messages of a kind arrive.
-/
import Verif.Spec.Extension
import Verif.Spec.Stream

namespace Spec
open RustBit

/-- A message (id, body) that is too short for its kind, or whose document is cut short. -/
def Lethal (id : UInt8) (body : Bytes) : Prop :=
  ((id = 6 ∨ id = 7) ∧ body.length < 8) ∨ (id = 19 ∧ body.length < 68) ∨
    (id = 20 ∧ (body = [] ∨ ∃ ext payload, body = ext :: payload ∧ Cut payload))

/-- A message as the protocol has it (BEP 3, BEP 10): requests and blocks have a piece and an offset, 19 is a whole handshake, and an extension message is
an extended id, a document, and data. -/
def Proper (id : UInt8) (body : Bytes) : Prop :=
  (id = 6 ∨ id = 7 → 8 ≤ body.length) ∧ (id = 19 → body.length = 68) ∧
    (id = 20 → ∃ ext v doc data, IsBencode v doc ∧ body = ext :: (doc ++ data))

/-- If the message tells the size of the metadata it also tells the id by which the metadata is asked for (BEP 9). -/
def OffersMetadata (id : UInt8) (body : Bytes) : Prop :=
  id = 20 → ∀ ext payload v n, body = ext :: payload → Header v n payload → intAt b!"metadata_size" v ≠ none →
    intAt b!"ut_metadata" (valueAt b!"m" v) ≠ none

/-- The bytes are whole messages, one after the other, each of which satisfies `P`: handshakes, and frames shorter than 19 * 2^24 bytes. No keep-alives. -/
inductive Whole (P : UInt8 → Bytes → Prop) : Bytes → Prop
  | nil : Whole P []
  | handshake {hs rest} : hs.length = 68 → hs.head? = some 19 → P 19 hs → Whole P rest → Whole P (hs ++ rest)
  | frame {id body frame rest} : IsFrame id body frame → frame.head? ≠ some 19 → P id body → Whole P rest → Whole P (frame ++ rest)

/-- On this connection every call is successful and messages arrive whole. -/
def SendsWhole (P : UInt8 → Bytes → Prop) (net : Net) : Prop := ∀ t, Whole P (net t).arrive ∧ (net t).kind ≠ .fail

/-- The receive buffer holds the last of the bytes that have arrived. -/
def LastOf (net : Net) (c : Conn) : Prop := c.buf <:+ arrivals net 0 c.t

end Spec
