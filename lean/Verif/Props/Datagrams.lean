/-
C123 for UDP trackers: a lookup is a program at a datagram socket, and trackers that react are covered by schedules.
-/
import Verif.Spec.Datagrams

namespace Spec
open RustBit

def Datagrams.bind {α β : Type} : Datagrams α → (α → Datagrams β) → Datagrams β
  | .over a, k => k a
  | .send msg next, k => .send msg fun b => (next b).bind k
  | .receive next, k => .receive fun r => (next r).bind k

theorem Datagrams.run_bind {α β : Type} (net : UdpNet) (T : Datagrams α) (k : α → Datagrams β) (s : UdpState) :
    (T.bind k).run net s = (k (T.run net s).1).run net (T.run net s).2 := by
  induction T generalizing s with
  | over a => rfl
  | send msg next ih => exact ih _ _
  | receive next ih => exact ih _ _

/-- What a tracker that reacts brings about is what the schedule of what it does brings about. -/
theorem Datagrams.meet_run {α : Type} (τ : LiveTracker) (T : Datagrams α) : ∀ (w : List Bytes) (o : List Bool) (r : List UdpRecv) (net : UdpNet),
    w.length = o.length →
    (∀ i b, (T.meet τ w o r).2.2.1[i]? = some b → net.send i = b) → (∀ i x, (T.meet τ w o r).2.2.2[i]? = some x → net.recv i = x) →
    T.run net ⟨w, r.length⟩ = ((T.meet τ w o r).1, ⟨(T.meet τ w o r).2.1, (T.meet τ w o r).2.2.2.length⟩) ∧
      o <+: (T.meet τ w o r).2.2.1 ∧ r <+: (T.meet τ w o r).2.2.2 := by
  induction T with
  | over a => intro w o r net _ _ _; exact ⟨rfl, List.prefix_refl _, List.prefix_refl _⟩
  | send msg next ih =>
    intro w o r net hl h1 h2
    obtain ⟨-, p1, p2⟩ := ih (τ.takes (w ++ [msg]) r) (w ++ [msg]) (o ++ [τ.takes (w ++ [msg]) r]) r net (by simp [hl]) h1 h2
    obtain ⟨g, -, -⟩ := ih (τ.takes (w ++ [msg]) r) (w ++ [msg]) (o ++ [τ.takes (w ++ [msg]) r]) r net (by simp [hl]) h1 h2
    have hs : net.send w.length = τ.takes (w ++ [msg]) r := by
      apply h1
      obtain ⟨t, ht⟩ := p1
      rw [Datagrams.meet, ← ht, hl]
      simp
    refine ⟨?_, (List.prefix_append _ _).trans p1, p2⟩
    show (next (net.send w.length)).run net ⟨w ++ [msg], r.length⟩ = _
    rw [hs]
    exact g
  | receive next ih =>
    intro w o r net hl h1 h2
    obtain ⟨g, p1, p2⟩ := ih (τ.answers w r) w o (r ++ [τ.answers w r]) net hl h1 h2
    have hs : net.recv r.length = τ.answers w r := by
      apply h2
      obtain ⟨t, ht⟩ := p2
      rw [Datagrams.meet, ← ht]
      simp
    refine ⟨?_, p1, (List.prefix_append _ _).trans p2⟩
    show (next (net.recv r.length)).run net ⟨w, r.length + 1⟩ = _
    rw [hs]
    rw [List.length_append] at g
    exact g

/-- A schedule is a tracker that counts. -/
theorem Datagrams.run_meet {α : Type} (net : UdpNet) (T : Datagrams α) : ∀ (w : List Bytes) (o : List Bool) (r : List UdpRecv),
    (T.meet ⟨fun w _ => net.send (w.length - 1), fun _ r => net.recv r.length⟩ w o r).1 = (T.run net ⟨w, r.length⟩).1 := by
  induction T with
  | over a => intros; rfl
  | send msg next ih =>
    intro w o r
    have := ih (net.send ((w ++ [msg]).length - 1)) (w ++ [msg]) (o ++ [net.send ((w ++ [msg]).length - 1)]) r
    rw [Datagrams.meet, Datagrams.run]
    refine this.trans ?_
    rw [show (w ++ [msg]).length - 1 = w.length by simp]
  | receive next ih =>
    intro w o r
    have := ih (net.recv r.length) w o (r ++ [net.recv r.length])
    rw [List.length_append] at this
    exact this

end Spec

namespace RustBit
open Spec

/-- src/tracker/udp_tracker.rs:62-81 as a program at a socket. -/
def connectDialogue (msg : Bytes) : Nat → Bytes → Datagrams (Res UdpTrackerError Bytes)
  | 0, _ => .over (.err .noConnectionEstablished)
  | n + 1, buf => .send msg fun _ => .receive fun
    | .datagram b => .over (sliceFrom (b.take buf.length ++ buf.drop b.length) 8)
    | .failed => connectDialogue msg n buf
    | .never => .over .hang

theorem connectDialogue_run (net : UdpNet) (msg : Bytes) : ∀ (n : Nat) (buf : Bytes) (s : UdpState),
    (connectDialogue msg n buf).run net s = connectLoop net msg n s buf
  | 0, _, _ => rfl
  | n + 1, buf, s => by
    rw [connectDialogue, connectLoop]
    simp only [Datagrams.run, sendUdp, readUdp]
    cases net.recv s.recvs with
    | datagram b => rfl
    | failed => exact connectDialogue_run net msg n buf _
    | never => rfl

/-- src/tracker/udp_tracker.rs:42-59 as a program at a socket. -/
def exchangeDialogue (infoHash peerId : Bytes) : Datagrams (Res UdpTrackerError Bytes) :=
  (connectDialogue (makeConnectionMessage transactionId) 4 (List.replicate 16 0)).bind fun
    | .ok connectionId => .send (makeAnnounceMessage transactionId connectionId peerId infoHash) fun
      | true => .receive fun
        | .datagram b => .over (if 26 < min b.length 4000 then slice (b.take 4000 ++ (List.replicate 4000 0).drop b.length) 20 (min b.length 4000) else .err .wrongResponseSize)
        | .failed => .over (.err .recieveError)
        | .never => .over .hang
      | false => .over (.err .sendError)
    | r => .over r

theorem exchangeDialogue_run (net : UdpNet) (infoHash peerId : Bytes) (s : UdpState) :
    (exchangeDialogue infoHash peerId).run net s = udpExchange net infoHash peerId s := by
  rw [exchangeDialogue, Datagrams.run_bind, connectDialogue_run, udpExchange, connectToTracker]
  cases connectLoop net (makeConnectionMessage transactionId) 4 s (List.replicate 16 0) with
  | mk r s =>
    cases r with
    | ok cid =>
      simp only [Datagrams.run, sendUdp, readAnnounce, readUdp, List.length_replicate]
      cases net.send s.sent.length with
      | false => rfl
      | true =>
        simp only [if_true, Datagrams.run]
        cases net.recv s.recvs with
        | datagram b =>
          simp only [Datagrams.run]
          split <;> rfl
        | failed => rfl
        | never => rfl
    | err e => rfl
    | panic => rfl
    | hang => rfl

/-- **C123** for UDP trackers: what is done at the socket of a lookup is a program that learns of each call only what came of it; for every schedule the same comes out and
the same is sent. Trackers that choose what they do from all that they have been sent bring about just the results that fixed schedules bring about. -/
theorem C123_udp (infoHash peerId : Bytes) : ∃ T : Datagrams (Res UdpTrackerError Bytes),
    (∀ net, T.run net ⟨[], 0⟩ = udpExchange net infoHash peerId ⟨[], 0⟩) ∧
    ∀ r, (∃ τ : LiveTracker, (T.meet τ [] [] []).1 = r) ↔ ∃ net : UdpNet, (udpExchange net infoHash peerId ⟨[], 0⟩).1 = r := by
  refine ⟨exchangeDialogue infoHash peerId, fun net => exchangeDialogue_run net infoHash peerId _, fun r => ⟨?_, ?_⟩⟩
  · rintro ⟨τ, rfl⟩
    generalize hM : (exchangeDialogue infoHash peerId).meet τ [] [] [] = M
    refine ⟨⟨true, fun _ => true, fun i => M.2.2.1.getD i true, fun i => M.2.2.2.getD i .failed⟩, ?_⟩
    have := Datagrams.meet_run τ (exchangeDialogue infoHash peerId) [] [] []
      ⟨true, fun _ => true, fun i => M.2.2.1.getD i true, fun i => M.2.2.2.getD i .failed⟩ rfl
      (by rw [hM]; intro i b hb; simp [hb]) (by rw [hM]; intro i b hb; simp [hb])
    rw [← exchangeDialogue_run, ← hM]
    rw [hM] at this ⊢
    exact congrArg Prod.fst this.1
  · rintro ⟨net, rfl⟩
    exact ⟨_, (Datagrams.run_meet net (exchangeDialogue infoHash peerId) [] [] []).trans (by rw [← exchangeDialogue_run]; rfl)⟩

/-- **C123** What the tracker is sent, and what it answers, in such a meeting is what is sent and received with the schedule of its answers. -/
theorem C123_udp_heard {α : Type} (T : Datagrams α) (τ : LiveTracker) (net : UdpNet) (h1 : ∀ i b, (T.meet τ [] [] []).2.2.1[i]? = some b → net.send i = b)
    (h2 : ∀ i x, (T.meet τ [] [] []).2.2.2[i]? = some x → net.recv i = x) :
    T.run net ⟨[], 0⟩ = ((T.meet τ [] [] []).1, ⟨(T.meet τ [] [] []).2.1, (T.meet τ [] [] []).2.2.2.length⟩) :=
  (Datagrams.meet_run τ T [] [] [] net rfl h1 h2).1

/-- A tracker whose connection id is the beginning of the first datagram it is sent, and whose peers are made up from the beginning of the second. -/
def sampleTracker : LiveTracker := ⟨fun _ _ => true, fun w _ =>
  .datagram (if w.length = 1 then [0, 0, 0, 0, 0, 1, 0x19, 0x9e] ++ (w.getD 0 []).take 8 else List.replicate 20 0 ++ List.replicate 12 ((w.getD 1 []).headD 0))⟩

/-- Non-vacuity: with it a lookup ends well, and what comes out depends on what it has heard. -/
example : ((exchangeDialogue (List.replicate 20 1) (List.replicate 20 2)).meet sampleTracker [] [] []).1 = .ok (List.replicate 12 0) ∧
    ((exchangeDialogue (List.replicate 20 1) (List.replicate 20 2)).meet sampleTracker [] [] []).2.1.map List.length = [16, 98] := by
  constructor <;> decide +kernel

end RustBit
