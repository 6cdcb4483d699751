/-
Streams of messages that arrive in segments.
-/
import Verif.Spec.Download

namespace Spec
open RustBit

/-- The first `j` messages of a stream. -/
def firstMsgs (ms : Nat → WireMsg) (j : Nat) : List WireMsg := (List.range j).map ms

/-- The bytes of the first `j` messages of a stream. -/
def streamed (ms : Nat → WireMsg) (j : Nat) : Bytes := (firstMsgs ms j).flatMap wire

/-- The messages `ms` arrive in any segments, but the five bytes of length and id together: `k` system calls from `c` on,
`full k` of them have arrived, and `part k` of the next. A message that has begun to arrive is complete 42 calls later. -/
structure Segmented (net : Net) (c : Conn) (ms : Nat → WireMsg) (full : Nat → Nat) (part : Nat → Bytes) : Prop where
  up : ∀ t, c.t ≤ t → (net t).kind ≠ .fail
  bytes : ∀ k, c.buf ++ arrivals net c.t k = streamed ms (full k) ++ part k
  begun : ∀ k, part k <+: wire (ms (full k)) ∧ part k ≠ wire (ms (full k))
  header : ∀ k, part k = [] ∨ 5 ≤ (part k).length
  prompt : ∀ k, part k ≠ [] → full k < full (k + 42)

/-- The peer answers with a handshake for `hash` before the third system call is over (the first one being the sending of our own handshake);
the stream of its messages follows, of which `rest` has arrived by then. -/
structure Opening (net : Net) (hash rest : Bytes) (ms : Nat → WireMsg) (full : Nat → Nat) (part : Nat → Bytes) : Prop where
  handshake : ∃ flags hisId hs, IsHandshake flags hash hisId hs ∧ arrivals net 0 3 = hs ++ rest
  up : ∀ t, t < 3 → (net t).kind ≠ .fail
  stream : Segmented net ⟨rest, 3⟩ ms full part

/-- The first `r` messages of the stream have begun to arrive after `k` calls. -/
def BegunBy (full : Nat → Nat) (part : Nat → Bytes) (r k : Nat) : Prop := r ≤ full k ∨ (r = full k + 1 ∧ part k ≠ [])

end Spec
