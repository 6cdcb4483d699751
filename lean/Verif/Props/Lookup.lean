/-
C79: what a lookup at a tracker can do to the program.
-/
import Verif.Props.Tracker
import Verif.Props.Bencode

namespace RustBit
open Spec

/-- The socket of a lookup is connected to the tracker. -/
def Contacted (udp : UdpNet) (url : TrackerUrl) : Prop :=
  url.scheme = b!"udp" ∧ udp.bind = true ∧ ∃ h p, url.hostStr = some h ∧ url.port = some p ∧ udp.connect (h ++ c!":" :: decimal p) = true

theorem connectLoop_no_panic (net : UdpNet) (msg : Bytes) (n : Nat) : ∀ (s : UdpState) (buf : Bytes), buf.length = 16 →
    (connectLoop net msg n s buf).1 ≠ .panic ∧ (connectLoop net msg n s buf).2.sent.head? = (s.sent ++ List.replicate n msg).head? := by
  induction n with
  | zero => intro s buf _; simp [connectLoop]
  | succ n ih =>
    intro s buf hb
    have hh : (s.sent ++ List.replicate (n + 1) msg).head? = (s.sent ++ [msg]).head? := by
      cases s.sent <;> simp [List.replicate_succ]
    rw [hh]
    simp only [connectLoop, sendUdp, readUdp]
    cases hr : net.recv s.recvs with
    | never => simp
    | failed =>
      simp only []
      obtain ⟨h1, h2⟩ := ih { s with sent := s.sent ++ [msg], recvs := s.recvs + 1 } buf hb
      refine ⟨h1, ?_⟩
      rw [h2]
      simp only []
      cases s.sent <;> simp
    | datagram b =>
      simp only []
      refine ⟨?_, trivial⟩
      simp only [sliceFrom, List.length_append, List.length_take, List.length_drop, hb]
      rw [if_pos (by omega)]
      simp

theorem udpExchange_no_panic (net : UdpNet) (infoHash peerId : Bytes) :
    (udpExchange net infoHash peerId ⟨[], 0⟩).1 ≠ .panic ∧
      (udpExchange net infoHash peerId ⟨[], 0⟩).2.sent.head? = some (makeConnectionMessage transactionId) := by
  obtain ⟨h1, h2⟩ := connectLoop_no_panic net (makeConnectionMessage transactionId) 4 ⟨[], 0⟩ (List.replicate 16 0) (by simp)
  simp only [udpExchange, connectToTracker]
  generalize connectLoop net (makeConnectionMessage transactionId) 4 ⟨[], 0⟩ (List.replicate 16 0) = x at h1 h2
  obtain ⟨r, s⟩ := x
  simp only [List.nil_append] at h1 h2
  have h3 : s.sent.head? = some (makeConnectionMessage transactionId) := by rw [h2]; rfl
  cases r with
  | panic => exact absurd rfl h1
  | hang => exact ⟨by simp, h3⟩
  | err e => exact ⟨by simp, h3⟩
  | ok cid =>
    have h4 : (s.sent ++ [makeAnnounceMessage transactionId cid peerId infoHash]).head? = some (makeConnectionMessage transactionId) := by
      cases hs : s.sent with
      | nil => rw [hs] at h3; cases h3
      | cons a t => rw [hs] at h3; exact h3
    simp only [sendUdp]
    cases net.send s.sent.length with
    | false => exact ⟨by simp, h4⟩
    | true =>
      simp only [if_true, readAnnounce, readUdp]
      cases net.recv s.recvs with
      | never => exact ⟨by simp, h4⟩
      | failed => exact ⟨by simp, h4⟩
      | datagram b =>
        simp only []
        have hbuf : (List.replicate 4000 (0 : UInt8)).length = 4000 := List.length_replicate
        generalize List.replicate 4000 (0 : UInt8) = buf at hbuf
        by_cases hl : 26 < min b.length buf.length
        · rw [if_pos hl]
          refine ⟨?_, h4⟩
          unfold slice
          rw [if_pos (by rw [List.length_append, List.length_take, List.length_drop]; omega)]
          simp
        · rw [if_neg hl]
          exact ⟨by simp, h4⟩

/-- C79: a lookup panics exactly when the socket cannot be bound or connected, or when the answer of an HTTP tracker is cut off in the
sense of C05; no datagram a tracker sends makes it panic. -/
theorem C79_panics_exactly_partial (udp : UdpNet) (http : Bytes → HttpGet) (peerId : Bytes) (url : TrackerUrl) (infoHash : Bytes) :
    (getPeersByTracker udp http peerId url infoHash).1 = .panic ↔
      (url.scheme = b!"udp" ∧ (udp.bind = false ∨ ∃ h p, url.hostStr = some h ∧ url.port = some p ∧ udp.connect (h ++ c!":" :: decimal p) = false)) ∨
      (url.scheme = b!"http" ∧ ∃ b, http (announceUrl url infoHash peerId) = .body b ∧ Cut b) := by
  unfold getPeersByTracker
  by_cases h1 : url.scheme = b!"http"
  · rw [if_pos h1]
    have hu : url.scheme ≠ b!"udp" := by rw [h1]; decide
    simp only [h1, true_and, show b!"http" ≠ b!"udp" by decide, false_and, false_or]
    unfold tcpCall
    cases hh : http (announceUrl url infoHash peerId) with
    | failed => simp [Res.mapErr]
    | broken => simp [Res.mapErr]
    | body b =>
      simp only [HttpGet.body.injEq, exists_eq_left', ← C05_panics_exactly_partial b]
      cases hd : Decoder.decode b with
      | panic => simp [Res.mapErr]
      | hang => simp [Res.mapErr]
      | err e => simp [Res.mapErr]
      | ok r =>
        obtain ⟨m, i⟩ := r
        have hx : m.getBytesFromDict b!"peers" ≠ .panic ∧ m.getBytesFromDict b!"peers" ≠ .hang := by
          unfold Metainfo.getBytesFromDict
          cases m with
          | dictionary d =>
            simp only [Metainfo.getDictContent, Res.bind_ok]
            cases mapGet d b!"peers" with
            | none => simp
            | some v => cases v <;> simp [Metainfo.getBytesContent]
          | integer _ | list _ | string _ | nothing => simp [Metainfo.getDictContent]
        simp only [Res.mapErr, Res.bind_ok]
        cases hg : m.getBytesFromDict b!"peers" with
        | panic => exact absurd hg hx.1
        | hang => exact absurd hg hx.2
        | err e => simp
        | ok v => simp
  · rw [if_neg h1]
    by_cases h2 : url.scheme = b!"udp"
    · rw [if_pos h2]
      simp only [h2, true_and, false_and, or_false, show ¬ b!"udp" = b!"http" by decide]
      have key : (udpCall udp infoHash peerId url).1 = .panic ↔
          (udp.bind = false ∨ ∃ h p, url.hostStr = some h ∧ url.port = some p ∧ udp.connect (h ++ c!":" :: decimal p) = false) := by
        unfold udpCall
        cases hb : udp.bind with
        | false => simp
        | true =>
          simp only [Bool.not_true, Bool.false_eq_true, if_false, Bool.true_eq_false, false_or]
          cases hh : url.hostStr with
          | none => simp
          | some h =>
            cases hp : url.port with
            | none => simp
            | some p =>
              simp only [Option.some.injEq, exists_and_left, exists_eq_left']
              cases hc : udp.connect (h ++ c!":" :: decimal p) with
              | false => simp
              | true => simpa using (udpExchange_no_panic udp infoHash peerId).1
      rw [← key]
      generalize udpCall udp infoHash peerId url = x
      obtain ⟨r, s⟩ := x
      cases r <;> simp [Res.mapErr]
    · rw [if_neg h2]
      simp [h1, h2]

/-- C79: datagrams are sent exactly to trackers the socket is connected to, and the first one is a connect request. -/
theorem C79_contacts (udp : UdpNet) (http : Bytes → HttpGet) (peerId : Bytes) (url : TrackerUrl) (infoHash : Bytes) :
    ((getPeersByTracker udp http peerId url infoHash).2.sent ≠ [] ↔ Contacted udp url) ∧
    (Contacted udp url → (getPeersByTracker udp http peerId url infoHash).2.sent.head? = some (makeConnectionMessage transactionId)) := by
  have main : (Contacted udp url → (getPeersByTracker udp http peerId url infoHash).2.sent.head? = some (makeConnectionMessage transactionId)) ∧
      (¬ Contacted udp url → (getPeersByTracker udp http peerId url infoHash).2.sent = []) := by
    constructor
    · rintro ⟨hs, hb, h, p, hh, hp, hc⟩
      unfold getPeersByTracker
      rw [if_neg (by rw [hs]; decide), if_pos hs]
      simp only [udpCall, hb, hh, hp, hc, Bool.not_true, Bool.false_eq_true, if_false, if_true]
      exact (udpExchange_no_panic udp infoHash peerId).2
    · intro hn
      unfold getPeersByTracker
      split
      · rfl
      · split
        · rename_i hs
          simp only [udpCall]
          cases hb : udp.bind with
          | false => rfl
          | true =>
            simp only [Bool.not_true, Bool.false_eq_true, if_false]
            cases hh : url.hostStr with
            | none => rfl
            | some h =>
              cases hp : url.port with
              | none => rfl
              | some p =>
                simp only []
                cases hc : udp.connect (h ++ c!":" :: decimal p) with
                | false => rfl
                | true => exact absurd ⟨hs, hb, h, p, hh, hp, hc⟩ hn
        · rfl
  refine ⟨⟨?_, ?_⟩, main.1⟩
  · intro h
    by_cases hc : Contacted udp url
    · exact hc
    · exact absurd (main.2 hc) h
  · intro h h0
    have := main.1 h
    rw [h0] at this
    cases this

/-- Non-vacuity of both cases of `C79_contacts`. -/
example : Contacted (answers [] []) ⟨b!"udp", some b!"h", some 1, []⟩ ∧ ¬ Contacted (answers [] []) ⟨b!"udp", none, some 1, []⟩ :=
  ⟨⟨rfl, rfl, _, _, rfl, rfl, rfl⟩, by rintro ⟨-, -, h, p, hh, -⟩; cases hh⟩

/-- C79 refuted: an HTTP tracker that answers `d`, and a UDP tracker to which the socket cannot be connected. -/
theorem C79_refuted (peerId infoHash str : Bytes) (udp : UdpNet) :
    (getPeersByTracker udp (fun _ => .body b!"d") peerId ⟨b!"http", none, none, str⟩ infoHash).1 = .panic ∧
    (getPeersByTracker ⟨true, fun _ => false, fun _ => true, fun _ => .failed⟩ (fun _ => .failed) peerId ⟨b!"udp", some b!"h", some 1, str⟩ infoHash).1 = .panic := by
  constructor
  · rw [C79_panics_exactly_partial]
    exact .inr ⟨rfl, _, rfl, .dict .«end»⟩
  · rw [C79_panics_exactly_partial]
    exact .inl ⟨rfl, .inr ⟨_, _, rfl, rfl, rfl⟩⟩

end RustBit
