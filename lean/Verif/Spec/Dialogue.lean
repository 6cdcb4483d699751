/-
What it is to behave like somebody at a socket: to make one call after the other, and to learn of each call only what came of it.
-/
import Verif.Spec.Download

namespace Spec
open RustBit

/-- A program at a socket. It is over, or it makes a call, in which it may write something, and goes on as what came of the call says. There is no other way to learn
anything of the network. -/
inductive Dialogue (α : Type) where
  | over (a : α)
  | call (says : Option Bytes) (next : NetEv → Dialogue α)

/-- The program when the network does as a schedule says, beginning with its `t`-th call: what comes out, the number of calls in the end, and what has been written to
the socket, `w` of it before. -/
def Dialogue.run {α : Type} (net : Net) : Dialogue α → Nat → List Bytes → α × Nat × List Bytes
  | .over a, t, w => (a, t, w)
  | .call says next, t, w => (next (net t)).run net (t + 1) (w ++ says.toList)

/-- What has been written before call `n`, with the program as it is at call `t`. -/
def Dialogue.before {α : Type} (net : Net) (n : Nat) : Dialogue α → Nat → List Bytes → List Bytes
  | .over _, _, w => w
  | .call says next, t, w => if t < n then (next (net t)).before net n (t + 1) (w ++ says.toList) else w

/-- Somebody at the other end who pays attention: what happens at a call may depend on all that has been written to the socket up to then, that in the call
included, and on all that has happened before. -/
abbrev Listener := List Bytes → List NetEv → NetEv

/-- The program meets a listener: what comes out, what has happened at the calls, and what has been written. -/
def Dialogue.meet {α : Type} (σ : Listener) : Dialogue α → List NetEv → List Bytes → α × List NetEv × List Bytes
  | .over a, past, w => (a, past, w)
  | .call says next, past, w =>
    (next (σ (w ++ says.toList) past)).meet σ (past ++ [σ (w ++ says.toList) past]) (w ++ says.toList)

/-- `T` is the same program as `F`, a function of the whole schedule: for every schedule the same comes out of it, after the same number of calls, with the same written
to the socket. -/
def Interactive {ρ : Type} (T : Dialogue (ρ × Peer)) (F : Net → ρ × Peer) : Prop :=
  ∀ net, T.run net 0 [] = (F net, (F net).2.conn.t, written (F net).2.log)

/-- Two schedules do not differ in the first `n` calls. -/
def SameUntil (n : Nat) (net net' : Net) : Prop := ∀ i, i < n → net i = net' i

end Spec
