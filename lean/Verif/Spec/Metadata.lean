/-
What a peer sends that announces and serves the metadata of a torrent (BEP 9, BEP 10).
-/
import Verif.Spec.BencodeRel
import Verif.Spec.Segments

namespace Spec
open RustBit

/-- An extension handshake (extended id 0) that announces metadata of the given size and an id for metadata messages. -/
def IsAnnouncement (size : Nat) (x : WireMsg) : Prop :=
  ∃ d doc, IsBencode (.dict d) doc ∧ Readable (.dict d) ∧ x = (20, 0 :: doc) ∧ intFor b!"msg_type" d = none ∧
    intFor b!"metadata_size" d = some size ∧ intFor b!"ut_metadata" (dictFor b!"m" d) ≠ none

/-- A message (of another extended id) with block `i` of the metadata. -/
def IsData (md : Bytes) (i : Nat) (x : WireMsg) : Prop :=
  ∃ ext d doc, ext ≠ 0 ∧ IsBencode (.dict d) doc ∧ Readable (.dict d) ∧ x = (20, ext :: (doc ++ blockOf md i)) ∧
    intFor b!"msg_type" d = some 1 ∧ intFor b!"piece" d = some i ∧ intFor b!"metadata_size" d = none

/-- Another extension message: peer exchange, a request or refusal of metadata, an extension handshake that does not speak of metadata, ... -/
def IsOther (x : WireMsg) : Prop :=
  ∃ ext d doc data, IsBencode (.dict d) doc ∧ Readable (.dict d) ∧ x = (20, ext :: (doc ++ data)) ∧
    intFor b!"msg_type" d ≠ some 1 ∧ intFor b!"metadata_size" d = none

open Classical in
/-- The messages with a block of the metadata. -/
noncomputable def isDataMsg (md : Bytes) (x : WireMsg) : Bool := decide (∃ i, IsData md i x)

end Spec
