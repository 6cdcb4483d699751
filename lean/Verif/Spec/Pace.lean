/-
Vocabulary for statements about when requests are written and answered.
-/
import Verif.Spec.Download
import Verif.Model.Clock

namespace Spec
open RustBit

/-- The times at which something was written, in order. -/
def requestTimes (h : List (Nat × Ev)) : List Nat :=
  h.filterMap fun e => match e.2 with
    | .sent _ => some e.1
    | .got _ => none

/-- The times at which a message that answers a request had been received, in order. -/
def answerTimes (d : Downloadable) (h : List (Nat × Ev)) : List Nat :=
  h.filterMap fun e => match e.2 with
    | .got m => if isAnswer d m then some e.1 else none
    | .sent _ => none

/-- Every answer comes at least `δ` after the request with the same number (the time a request and its answer take to travel, say). -/
def Latency (δ : Nat) (d : Downloadable) (h : List (Nat × Ev)) : Prop :=
  ∀ (k a : Nat), (answerTimes d h)[k]? = some a → ∃ q, (requestTimes h)[k]? = some q ∧ q + δ ≤ a

/-- A peer that keeps in step with the loop: nothing fails, and `ms k` arrives as a whole when the loop, having written its request number `k`, first asks
for bytes. In numbers of system calls from `t` on: two calls find nothing, the third is the first request; from then on seven calls read a message and one
writes the next request. -/
def Lockstep (net : Net) (t : Nat) (ms : Nat → WireMsg) : Prop :=
  (∀ i, t ≤ i → (net i).kind = .up) ∧ (∀ k, (net (t + 4 + 8 * k)).arrive = wire (ms k)) ∧
  ∀ i, t ≤ i → (∀ k, i ≠ t + 4 + 8 * k) → (net i).arrive = []

end Spec
