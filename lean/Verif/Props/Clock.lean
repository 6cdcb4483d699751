/-
C89: how long a peer can make the client wait.
-/
import Verif.Model.Clock
import Verif.Props.Endless

namespace RustBit
open Spec

theorem wait_le (w : Waits) (c : Conn) : c.wait w ≤ 100 := by unfold Conn.wait; split <;> omega

theorem wait_ne {w : Waits} {c : Conn} (h : c.buf ≠ []) : c.wait w = 0 := by unfold Conn.wait; rw [if_neg h]

theorem peek_conn (net : Net) (c : Conn) (n : Nat) : (c.peek net n).2 = c.advance net := by
  unfold Conn.peek
  simp only []
  split
  · rfl
  · split <;> rfl
  · rfl

/-- A call that saw bytes leaves them in the receive buffer. -/
theorem peek_some_ne {net : Net} {c : Conn} {n : Nat} (h : 0 < countOr0 (c.peek net n).1) : (c.peek net n).2.buf ≠ [] := by
  rw [peek_conn]
  intro hb
  revert h
  unfold Conn.peek
  simp only [hb]
  split <;> simp [countOr0]

theorem countOr0_zero (net : Net) (c : Conn) : countOr0 (c.peek net 0).1 = 0 := by
  unfold Conn.peek
  simp only []
  split
  · rfl
  · split <;> simp [countOr0]
  · simp [countOr0]

theorem read_fst (net : Net) (c : Conn) (n : Nat) : (c.read net n).1 = (c.peek net n).1 := by
  unfold Conn.read
  cases h : c.peek net n with
  | mk a b => cases a <;> rfl

/-- One attempt waits at most once for a body that is not empty. -/
theorem attempt_le (net : Net) (w : Waits) (c : Conn) {length : Nat} (h : 0 < length) : peekAndReadTime net w c length ≤ 100 := by
  unfold peekAndReadTime
  split
  · rename_i hc
    by_cases hb : c.buf = []
    · rw [wait_ne (peek_some_ne (by omega))]
      exact wait_le w c
    · rw [wait_ne hb, Nat.zero_add]; exact wait_le _ _
  · exact wait_le w c

/-- The pauses after the attempts when `k` are left. -/
def pauses : Nat → Nat
  | 0 => 0
  | k + 1 => 5 * (39 - k) + pauses k

theorem bodyLoop_le (net : Net) (w : Waits) : ∀ (k : Nat) (c : Conn) (length : Nat), 0 < length →
    bodyLoopTime net w k c length ≤ 100 * k + pauses k
  | 0, _, _, _ => Nat.zero_le _
  | k + 1, c, length, h => by
    unfold bodyLoopTime
    simp only []
    have ha := attempt_le net w c h
    split
    · simp only [pauses]; omega
    · rename_i c' hc
      have := bodyLoop_le net w k c' length h
      simp only [pauses]
      omega

/-- An attempt that is successful is followed by no pause: all but one of the pauses is the most then. -/
theorem bodyLoop_some_le (net : Net) (w : Waits) : ∀ (k : Nat) (c : Conn) (length : Nat), 0 < length → k ≤ 39 →
    (bodyLoop net k c length).1 ≠ none → bodyLoopTime net w k c length + 195 ≤ 100 * k + pauses k
  | 0, _, _, _, _, h => absurd rfl h
  | k + 1, c, length, h, hk, hs => by
    unfold bodyLoopTime
    unfold bodyLoop at hs
    simp only []
    have ha := attempt_le net w c h
    cases hp : peekAndRead net c length with
    | mk a c' =>
      cases a with
      | some b =>
        simp only [pauses]
        have : ∀ k, k ≤ 38 → 195 ≤ 100 * k + 5 * (39 - k) + pauses k := by
          intro k hk
          match k with
          | 0 => decide
          | 1 => decide
          | k + 2 => omega
        have := this k (by omega)
        omega
      | none =>
        rw [hp] at hs
        have := bodyLoop_some_le net w k c' length h (by omega) hs
        simp only [pauses]
        omega

theorem bodyLoop_time (net : Net) (w : Waits) (c : Conn) (length : Nat) : bodyLoopTime net w 39 c length ≤ 7800 ∧
    ((bodyLoop net 39 c length).1 ≠ none → bodyLoopTime net w 39 c length ≤ 7605) := by
  rcases Nat.eq_zero_or_pos length with h | h
  · subst h
    have hz : (peekAndRead net c 0).1 = some [] := by rw [peekAndRead_zero]
    have : bodyLoopTime net w 39 c 0 ≤ 200 := by
      unfold bodyLoopTime
      cases hp : peekAndRead net c 0 with
      | mk a c' =>
        rw [hp] at hz
        obtain rfl : a = some [] := hz
        simp only [peekAndReadTime]
        have h1 := wait_le w c
        have h2 := wait_le w (c.peek net 0).2
        split <;> omega
    omega
  · have h1 := bodyLoop_le net w 39 c length h
    have hp : pauses 39 = 3900 := by decide
    refine ⟨by omega, fun hs => ?_⟩
    have := bodyLoop_some_le net w 39 c length h (Nat.le_refl _) hs
    omega

/-- Reading what is not a handshake, when there is something to be read. -/
theorem readFramed_time (net : Net) (w : Waits) (c : Conn) (hb : c.buf ≠ []) : readFramedTime net w c ≤ 7900 ∧
    ((readFramed net c).1 ≠ none → readFramedTime net w c ≤ 7705) := by
  unfold readFramedTime readFramed
  rw [wait_ne hb, Nat.zero_add]
  cases c.read net 4 with
  | mk a c1 =>
    cases a with
    | none => simp
    | some b4 =>
      simp only []
      have hw := wait_le w c1
      cases c1.read net 1 with
      | mk a c2 =>
        cases a with
        | none => simp only []; exact ⟨by omega, fun h => absurd rfl h⟩
        | some b1 =>
          simp only []
          by_cases hz : ofBe (padTo 4 b4) = 0
          · simp only [hz, if_true]; exact ⟨by omega, fun _ => by omega⟩
          · simp only [hz, if_false]
            have h := bodyLoop_time net w c2 (ofBe (padTo 4 b4) - 1)
            cases hl : bodyLoop net 39 c2 (ofBe (padTo 4 b4) - 1) with
            | mk a c3 =>
              rw [hl] at h
              cases a with
              | none => exact ⟨by omega, fun h => absurd rfl h⟩
              | some body => have := h.2 (by simp); exact ⟨by omega, fun _ => by omega⟩

/-- C89: whatever the peer sends and whenever it does, a call of `read_stream` waits and sleeps for at most eight seconds, and one that returns a
message for at most 7.805 seconds. -/
theorem C89_read (net : Net) (w : Waits) (c : Conn) : readStreamTime net w c ≤ 8000 ∧
    ((readStream net c).1 ≠ none → readStreamTime net w c ≤ 7805) := by
  unfold readStreamTime readStream
  cases c.setReadTimeout net with
  | mk b c0 =>
    cases b with
    | false => simp
    | true =>
      simp only []
      have hw := wait_le w c0
      cases hm : hasMessages net c0 with
      | mk b c1 =>
        cases b with
        | false => exact ⟨by simp only []; omega, fun h => absurd rfl h⟩
        | true =>
          simp only []
          have hb1 : c1.buf ≠ [] := by
            unfold hasMessages at hm
            have hp := @peek_some_ne net c0 1
            cases hk : c0.peek net 1 with
            | mk a c' =>
              rw [hk] at hm hp
              cases a with
              | none => simp at hm
              | some bs =>
                simp only [Prod.mk.injEq, decide_eq_true_eq] at hm
                rw [← hm.2]
                exact hp (Nat.pos_of_ne_zero hm.1)
          rw [wait_ne hb1, Nat.zero_add]
          have hc2 := peek_conn net c1 68
          have hb2 : (c1.peek net 68).2.buf ≠ [] := by
            rw [hc2]
            intro h
            exact hb1 (List.append_eq_nil_iff.1 h).1
          cases hk : c1.peek net 68 with
          | mk a c2 =>
            rw [hk] at hb2
            have hf := readFramed_time net w c2 hb2
            cases a with
            | none => exact ⟨by simp only []; omega, fun h => by have := hf.2 h; simp only []; omega⟩
            | some p =>
              simp only []
              split
              · rw [wait_ne hb2]
                exact ⟨by omega, fun _ => by omega⟩
              · exact ⟨by omega, fun h => by have := hf.2 h; omega⟩

/-! ### In terms of what the peer sends -/

/-- A read that is not done once it has waited for the first byte takes bytes off the stream. -/
theorem slow_read_consumes (net : Net) (w : Waits) (c : Conn) (h : (c.after net 1).wait w < readStreamTime net w c) : Consumes net c (readStream net c).2 := by
  revert h
  unfold readStreamTime readStream Conn.setReadTimeout
  rw [advance_eq_after]
  cases decide ((net c.t).kind ≠ .fail) with
  | false => intro h; simp at h
  | true =>
    simp only []
    have hw := wait_le w (c.after net 1)
    unfold hasMessages
    rcases peek_cases net (c.after net 1) 1 with hp | hp
    · rw [hp, after_after]; intro h; simp only [] at h; omega
    · rw [hp, after_after]
      simp only []
      cases hz : decide ((List.take 1 (c.after net (1 + 1)).buf).length ≠ 0) with
      | false => intro h; simp only [] at h; omega
      | true =>
        simp only []
        have hne : (c.after net 2).buf ≠ [] := by
          intro e
          simp only [e, decide_eq_true_eq] at hz
          simp at hz
        have hne3 : (c.after net 3).buf ≠ [] := by
          have : (c.after net 3).buf = (c.after net 2).buf ++ arrivals net (c.t + 2) 1 := by
            simp [Conn.after, arrivals]
          rw [this]; simp [hne]
        rw [show (1 + 1 : Nat) = 2 from rfl, wait_ne hne, Nat.zero_add]
        have fin : (c.after net 1).wait w < (c.after net 1).wait w + readFramedTime net w (c.after net 3) → Consumes net c (readFramed net (c.after net 3)).2 := by
          intro h
          refine Consumes.after (shrinks_after net c 3) ?_
          revert h
          unfold readFramedTime readFramed
          rw [wait_ne hne3, Nat.zero_add]
          have hcs := consumes_read (net := net) (c := c.after net 3) (n := 4) (by omega) hne3
          cases hr : (c.after net 3).read net 4 with
          | mk a c1 =>
            rw [hr] at hcs
            cases a with
            | none => intro h; simp only [] at h; omega
            | some b4 =>
              intro _
              have h1 := hcs _ _ rfl
              simp only []
              have hs := shrinks_read net c1 1
              cases hr1 : c1.read net 1 with
              | mk a c2 =>
                rw [hr1] at hs
                have h2 := h1.then hs
                cases a with
                | none => exact h2
                | some b1 =>
                  simp only []
                  split
                  · exact h2
                  · have hl := shrinks_bodyLoop net 39 c2 (ofBe (padTo 4 b4) - 1)
                    cases hb : bodyLoop net 39 c2 (ofBe (padTo 4 b4) - 1) with
                    | mk a c3 => rw [hb] at hl; cases a <;> exact h2.then hl
        rcases peek_cases net (c.after net 2) 68 with hq | hq
        · rw [hq, after_after]; exact fin
        · rw [hq, after_after]
          simp only []
          split
          · intro h
            rw [wait_ne hne3] at h
            omega
          · exact fin

/-- What a read takes: the wait for a first byte, or bytes from the stream. -/
theorem C89_first_wait (net : Net) (w : Waits) (c : Conn) {B : Nat} (hB : Bounded net c B) :
    ∃ B', Bounded net (readStream net c).2 B' ∧ B' ≤ B ∧ (B' = B → readStreamTime net w c ≤ min (w (c.t + 1)) 100) := by
  by_cases h : Consumes net c (readStream net c).2
  · obtain ⟨B', rfl, hB'⟩ := h B hB
    exact ⟨B', hB', by omega, fun h => by omega⟩
  · refine ⟨B, (readStream_consumes net c).1 B hB, Nat.le_refl _, fun _ => ?_⟩
    have h1 := mt (slow_read_consumes net w c) h
    have h2 : (c.after net 1).wait w ≤ min (w (c.t + 1)) 100 := by
      rw [Conn.wait]
      split
      · exact Nat.le_refl _
      · exact Nat.zero_le _
    omega

/-- If nothing ever comes, a read takes no longer than one wait, and no time if the network answers at once. -/
example : Bounded (script []) ⟨[], 0⟩ 0 ∧ readStreamTime (script []) (fun t => 7 * t) ⟨[], 0⟩ = 7 := by
  refine ⟨fun k => ?_, by decide +kernel⟩
  have : ∀ k t, arrivals (script []) t k = [] := by
    intro k
    induction k with
    | zero => intro t; rfl
    | succ k ih => intro t; rw [arrivals, ih]; rfl
  rw [this]
  exact Nat.le_refl _

/-- What a read takes: at most 100 ms, or bytes from the stream. -/
theorem read_cost (net : Net) (w : Waits) (c : Conn) {B : Nat} (hB : Bounded net c B) :
    ∃ B', Bounded net (readStream net c).2 B' ∧ B' ≤ B ∧ readStreamTime net w c ≤ 100 + 7900 * (B - B') ∧
      ((readStream net c).1 ≠ none → B' < B ∧ readStreamTime net w c ≤ 7805) := by
  have ht := C89_read net w c
  obtain ⟨hs, hc⟩ := readStream_consumes net c
  by_cases h : Consumes net c (readStream net c).2
  · obtain ⟨B', rfl, hB'⟩ := h B hB
    exact ⟨B', hB', by omega, by omega, fun hn => ⟨by omega, ht.2 hn⟩⟩
  · refine ⟨B, hs B hB, Nat.le_refl _, ?_, fun hn => ?_⟩
    · have := mt (slow_read_consumes net w c) h
      have := wait_le w (c.after net 1)
      omega
    · cases hr : (readStream net c).1 with
      | none => exact absurd hr hn
      | some x => exact absurd (hc x hr) h

theorem readMessage_conn {ε : Type} (net : Net) (p : Peer) : (p.readMessage (ε := ε) net).2.conn = (readStream net p.conn).2 := by
  unfold Peer.readMessage
  cases readStream net p.conn with
  | mk a c =>
    cases a with
    | none => rfl
    | some x => obtain ⟨body, id, len⟩ := x; simp only []; split <;> rfl

theorem readAndApply_conn (net : Net) (p : Peer) : (readAndApply net p).2.conn = (readStream net p.conn).2 := by
  unfold readAndApply
  have h := readMessage_conn (ε := PeerManagerError) net p
  cases hr : p.readMessage (ε := PeerManagerError) net with
  | mk a p' =>
    rw [hr] at h
    cases a with
    | ok o => cases o with
      | none => exact h
      | some msg => exact (applyMessage_conn p' msg).trans h
    | _ => exact h

theorem readyLoop_cost (net : Net) (w : Waits) : ∀ (k : Nat) (p : Peer) {B : Nat}, Bounded net p.conn B →
    ∃ B', Bounded net (readyLoop net k p).2.conn B' ∧ B' ≤ B ∧ readyLoopTime net w k p ≤ 100 * k + 7900 * (B - B')
  | 0, p, B, hB => ⟨B, hB, Nat.le_refl _, Nat.zero_le _⟩
  | k + 1, p, B, hB => by
    unfold readyLoop readyLoopTime
    obtain ⟨B1, h1, h2, h3, -⟩ := read_cost net w p.conn hB
    rw [← readAndApply_conn] at h1
    cases hr : readAndApply net p with
    | mk a p' =>
      rw [hr] at h1
      cases a with
      | ok u =>
        simp only []
        by_cases hrd : p'.isReady = true
        · rw [if_pos hrd, if_pos hrd]
          exact ⟨B1, h1, h2, by omega⟩
        · rw [if_neg hrd, if_neg hrd]
          obtain ⟨B2, g1, g2, g3⟩ := readyLoop_cost net w k p' h1
          exact ⟨B2, g1, by omega, by omega⟩
      | _ => exact ⟨B1, h1, h2, by simp only []; omega⟩

theorem sendMessage_conn (net : Net) (p : Peer) (msg : Message) : (p.sendMessage net msg).conn = p.conn.after net 1 := by
  simp [Peer.sendMessage, Peer.write, Conn.writeAll, advance_eq_after]

theorem initPeer_cost (net : Net) (w : Waits) (p : Peer) {B : Nat} (hB : Bounded net p.conn B) :
    ∃ B', Bounded net (initPeer net p).2.conn B' ∧ B' ≤ B ∧ initPeerTime net w p ≤ 1100 + 7900 * (B - B') := by
  unfold initPeer initPeerTime
  simp only []
  have hc : (p.sendMessage net (newHandshake p.infoHash p.id)).conn = p.conn.after net 1 := sendMessage_conn net p _
  generalize p.sendMessage net (newHandshake p.infoHash p.id) = q at hc
  obtain ⟨B1, h1, h2, h3, -⟩ := read_cost net w q.conn (B := B) (by rw [hc]; exact shrinks_after net _ 1 _ hB)
  rw [← readAndApply_conn] at h1
  cases hr : readAndApply net q with
  | mk a p1 =>
    rw [hr] at h1
    cases a with
    | ok u =>
      simp only []
      by_cases hact : (!p1.active) = true
      · rw [if_pos hact, if_pos hact]; exact ⟨B1, h1, h2, by omega⟩
      · rw [if_neg hact, if_neg hact]
        have hc2 : ((p1.sendMessage net newInterested).sendMetadataHandshakeRequest net).2.conn = p1.conn.after net 2 := by
          simp [Peer.sendMetadataHandshakeRequest, Peer.sendMessage, Peer.write, Conn.writeAll, advance_eq_after, after_after]
        cases hs : (p1.sendMessage net newInterested).sendMetadataHandshakeRequest net with
        | mk ok p2 =>
          rw [hs] at hc2
          have hB2 : Bounded net p2.conn B1 := by rw [hc2]; exact shrinks_after net _ 2 _ h1
          cases ok with
          | false => exact ⟨B1, hB2, h2, by simp only []; omega⟩
          | true =>
            obtain ⟨B2, g1, g2, g3⟩ := readyLoop_cost net w 10 p2 hB2
            exact ⟨B2, g1, by omega, by simp only []; omega⟩
    | _ => exact ⟨B1, h1, h2, by simp only []; omega⟩

theorem execRun_cost (m : Build) (net : Net) (w : Waits) (d : Downloadable) : ∀ (f : Nat) (s : DState) {B : Nat}, Bounded net s.peer.conn B →
    s.idle ≤ 10 → execRunTime m net w d f s ≤ 8705 * B + 100 * (11 - s.idle)
  | 0, s, B, _, _ => Nat.zero_le _
  | f + 1, s, B, hB, hi => by
    unfold execRunTime
    obtain ⟨B1, h1, h2, h3, h4⟩ := read_cost net w s.peer.conn hB
    have tail : ∀ (s' s'' : DState), execTail m net d s' = .again s'' → Bounded net s'.peer.conn B1 → s''.idle = s'.idle + 1 ∧ s''.idle ≤ 10 ∧
        Bounded net s''.peer.conn B1 := by
      intro s' s'' he hb'
      revert he
      unfold execTail
      split
      · intro h; cases h
      · split
        · intro h; cases h
        · unfold MessageBuffer.requestNextMessage
          by_cases he : (s'.buf.isLenAsExpected || s'.buf.isFull) = true
          · simp only [he, if_true]
            split
            · intro h; cases h
            · intro h; cases h; exact ⟨rfl, by simp only []; omega, hb'⟩
          · simp only [he]
            cases (d.request m s'.peer s'.buf.buffer.length : Res DownloadableError Message) with
            | ok msg =>
              simp only [Bool.false_eq_true, if_false]
              split
              · intro h; cases h
              · intro h; cases h
                refine ⟨rfl, by simp only []; omega, ?_⟩
                rw [sendMessage_conn]
                exact shrinks_after net _ 1 _ hb'
            | _ => intro h; cases h
    unfold execStep Peer.readMessage
    cases hr : readStream net s.peer.conn with
    | mk a c =>
      rw [hr] at h1 h4
      cases a with
      | none =>
        simp only []
        cases he : execTail m net d { s with peer := { s.peer with conn := c } } with
        | done r p => simp only []; omega
        | again s'' =>
          obtain ⟨g1, g2, g3⟩ := tail _ _ he h1
          have := execRun_cost m net w d f s'' g3 g2
          simp only [] at g1 ⊢
          omega
      | some x =>
        obtain ⟨h5, h6⟩ := h4 (by simp)
        obtain ⟨body, id, len⟩ := x
        simp only []
        cases hn : Message.newRaw body len id with
        | ok msg =>
          simp only []
          cases he : execTail m net d ⟨({ s.peer with conn := c } : Peer).applyMessage msg, s.buf.pushMessage d msg, 0⟩ with
          | done r p => simp only []; omega
          | again s'' =>
            obtain ⟨g1, g2, g3⟩ := tail _ _ he (by rw [applyMessage_conn]; exact h1)
            have := execRun_cost m net w d f s'' g3 g2
            simp only [] at g1 ⊢
            omega
        | err e =>
          simp only []
          cases he : execTail m net d { s with peer := { s.peer with conn := c } } with
          | done r p => simp only []; omega
          | again s'' =>
            obtain ⟨g1, g2, g3⟩ := tail _ _ he h1
            have := execRun_cost m net w d f s'' g3 g2
            simp only [] at g1 ⊢
            omega
        | panic => simp only []; omega
        | hang => simp only []; omega

/-- C89: an attempt to get metadata or a piece from a peer that sends `B` bytes in all waits for at most 3.2 seconds and 8.705 seconds for every
byte sent, whenever the bytes come and whatever they are; a peer that sends nothing is given up after 3.2 seconds at most. Missing: peers that
never stop sending (refuted below). -/
theorem C89_attempt_partial (m : Build) (net : Net) (w0 : Nat) (w : Waits) (d : Downloadable) (f : Nat) (hash peerId : Bytes) (B : Nat)
    (hB : ∀ k, (arrivals net 0 k).length ≤ B) : attemptTime m net w0 w d f (Peer.new ⟨[], 0⟩ hash peerId) ≤ 3200 + 8705 * B := by
  unfold attemptTime connectTime
  obtain ⟨B1, h1, h2, h3⟩ := initPeer_cost net w (Peer.new ⟨[], 0⟩ hash peerId) (B := B) (fun k => by
    show ([] : Bytes).length + (arrivals net 0 k).length ≤ B
    have := hB k
    simpa using this)
  cases hi : initPeer net (Peer.new ⟨[], 0⟩ hash peerId) with
  | mk a p =>
    rw [hi] at h1
    cases a with
    | ok u =>
      simp only []
      cases (d.capacity m p : Res DownloadableError Nat) with
      | ok cap =>
        have := execRun_cost m net w d f ⟨p, ⟨[], cap, 0⟩, 0⟩ h1 (by simp)
        simp only [] at this ⊢
        omega
      | _ => simp only []; omega
    | _ => simp only []; omega

/-- C89: nothing waited for is left out: an attempt takes at least the time of connecting and of opening
together. -/
theorem C89_attempt_parts (m : Build) (net : Net) (w0 : Nat) (w : Waits) (d : Downloadable) (f : Nat) (p : Peer) :
    min w0 1000 + initPeerTime net w p ≤ attemptTime m net w0 w d f p := by
  unfold attemptTime connectTime
  omega

/-! ### The bounds are attained -/

/-- A network that takes its time at every call. -/
def lazy : Waits := fun _ => 100

/-- A peer that sends one byte for every call number in `l`, and is silent otherwise. -/
def dripping (l : List Nat) : Net := fun t => if t ∈ l then ⟨[1], .up⟩ else ⟨[], .up⟩

/-- C89: a peer that sends two bytes makes a read wait for eight seconds. -/
theorem C89_read_attained : readStreamTime (dripping [1, 4]) lazy ⟨[], 0⟩ = 8000 ∧ (arrivals (dripping [1, 4]) 0 50).length = 2 := by
  decide +kernel

/-- A peer that says nothing is given up after 0.1 seconds; one that opens and then says nothing after 1.1 seconds more. -/
example : initPeerTime (dripping []) lazy (Peer.new ⟨[], 0⟩ (List.replicate 20 7) (List.replicate 20 8)) = 100 := by decide +kernel

example : execRunTime .release (dripping []) lazy (.block 16384 0 16384) 50 ⟨readyPeer, ⟨[], 1, 0⟩, 0⟩ = 1100 := by decide +kernel

/-! ### Opening -/

theorem readyLoop_time (net : Net) (w : Waits) : ∀ (k : Nat) (p : Peer), readyLoopTime net w k p ≤ 8000 * k
  | 0, _ => Nat.zero_le _
  | k + 1, p => by
    unfold readyLoopTime
    have h := (C89_read net w p.conn).1
    cases readAndApply net p with
    | mk a p' =>
      cases a with
      | ok u =>
        simp only []
        have := readyLoop_time net w k p'
        split <;> omega
      | _ => simp only []; omega

/-- C89: whatever the peer sends, opening the connection to it waits for at most 87.805 seconds (after the second for connecting). -/
theorem C89_open (net : Net) (w : Waits) (hash peerId : Bytes) : initPeerTime net w (Peer.new ⟨[], 0⟩ hash peerId) ≤ 87805 := by
  unfold initPeerTime
  simp only []
  have hact : ((Peer.new ⟨[], 0⟩ hash peerId).sendMessage net (newHandshake hash peerId)).active = false := rfl
  rw [show (Peer.new ⟨[], 0⟩ hash peerId).infoHash = hash from rfl, show (Peer.new ⟨[], 0⟩ hash peerId).id = peerId from rfl]
  generalize (Peer.new ⟨[], 0⟩ hash peerId).sendMessage net (newHandshake hash peerId) = q at hact
  have h := C89_read net w q.conn
  by_cases hn : (readStream net q.conn).1 = none
  · have : readAndApply net q = (.ok (), { q with conn := (readStream net q.conn).2 }) := by
      unfold readAndApply Peer.readMessage
      cases hr : readStream net q.conn with
      | mk a c =>
        rw [hr] at hn
        cases hn
        rfl
    rw [this]
    simp only [hact]
    simp only [Bool.not_false, if_true]
    omega
  · have h1 := h.2 hn
    cases readAndApply net q with
    | mk a p1 =>
      cases a with
      | ok u =>
        simp only []
        split
        · omega
        · cases (p1.sendMessage net newInterested).sendMetadataHandshakeRequest net with
          | mk ok p2 =>
            cases ok with
            | false => simp only []; omega
            | true =>
              have := readyLoop_time net w 10 p2
              simp only []
              omega
      | _ => simp only []; omega

theorem readyLoop_not_handshake (net : Net) : ∀ (k : Nat) (p : Peer), (readyLoop net k p).1 ≠ .err .handshake
  | 0, _ => by simp [readyLoop]
  | k + 1, p => by
    rw [readyLoop]
    unfold readAndApply
    have he : ∀ e, (p.readMessage (ε := PeerManagerError) net).1 ≠ .err e := by
      intro e
      unfold Peer.readMessage
      split
      · simp
      · split <;> simp
    cases h : (p.readMessage (ε := PeerManagerError) net) with
    | mk a q =>
      rcases a with (_ | m) | e | _ | _ <;> simp only []
      · split
        · simp
        · exact readyLoop_not_handshake net k _
      · split
        · simp
        · exact readyLoop_not_handshake net k _
      · exact absurd (by rw [h]) (he e)
      · simp
      · simp

/-- C89: a peer whose first message is not the handshake that was asked for costs no more than one read. -/
theorem C89_refused (net : Net) (w : Waits) (hash peerId : Bytes) (h : (initPeer net (Peer.new ⟨[], 0⟩ hash peerId)).1 = .err .handshake) :
    initPeerTime net w (Peer.new ⟨[], 0⟩ hash peerId) = readStreamTime net w ⟨(net 0).arrive, 1⟩ ∧
      initPeerTime net w (Peer.new ⟨[], 0⟩ hash peerId) ≤ 8000 := by
  have key : initPeerTime net w (Peer.new ⟨[], 0⟩ hash peerId) = readStreamTime net w ⟨(net 0).arrive, 1⟩ := by
    unfold initPeerTime
    unfold initPeer at h
    simp only [] at h ⊢
    have hc : ((Peer.new ⟨[], 0⟩ hash peerId).sendMessage net (newHandshake (Peer.new ⟨[], 0⟩ hash peerId).infoHash (Peer.new ⟨[], 0⟩ hash peerId).id)).conn =
      ⟨(net 0).arrive, 1⟩ := rfl
    rw [hc]
    generalize (Peer.new ⟨[], 0⟩ hash peerId).sendMessage net (newHandshake (Peer.new ⟨[], 0⟩ hash peerId).infoHash (Peer.new ⟨[], 0⟩ hash peerId).id) = q at h
    cases hr : readAndApply net q with
    | mk a p1 =>
      rw [hr] at h
      cases a with
      | ok u =>
        simp only [] at h ⊢
        by_cases hact : (!p1.active) = true
        · rw [if_pos hact]; rfl
        · rw [if_neg hact] at h
          exfalso
          revert h
          cases (p1.sendMessage net newInterested).sendMetadataHandshakeRequest net with
          | mk ok p2 =>
            cases ok with
            | false => intro h; cases h
            | true => exact readyLoop_not_handshake net 10 p2
      | _ => rfl
  exact ⟨key, by rw [key]; exact (C89_read net w _).1⟩

/-- Non-vacuity: a peer that says two bytes at the worst times is given up after eight seconds. -/
example : (initPeer (dripping [2, 5]) (Peer.new ⟨[], 0⟩ (List.replicate 20 7) [])).1 = .err .handshake ∧
    initPeerTime (dripping [2, 5]) lazy (Peer.new ⟨[], 0⟩ (List.replicate 20 7) []) = 8000 := by decide +kernel

/-- A peer that sends its handshake inside a message, at the last moment, and then two bytes for every read that follows. -/
def drippingHandshake (hash : Bytes) : Net := fun t =>
  if t = 2 then ⟨[0, 0, 0, 69], .up⟩ else if t = 5 then ⟨[19], .up⟩
  else if t = 44 then ⟨(newHandshake hash (List.replicate 20 7)).asBytes, .up⟩
  else if t < 48 then ⟨[], .up⟩
  else if (t - 48) % 44 = 1 ∨ (t - 48) % 44 = 4 then ⟨[1], .up⟩ else ⟨[], .up⟩

/-- C89: the bound for opening is attained. -/
theorem C89_open_attained : initPeerTime (drippingHandshake (List.replicate 20 7)) lazy (Peer.new ⟨[], 0⟩ (List.replicate 20 7) []) = 87805 := by
  decide +kernel

/-! ### Peers that never stop -/

/-- A peer that sends an unchoke message whenever the client has waited for 100 ms. -/
def slowPeer : Net := fun t => if t = 1 ∨ 8 ≤ t ∧ (t - 8) % 7 = 1 then ⟨[0, 0, 0, 1, 1], .up⟩ else ⟨[], .up⟩

theorem slow_read {net : Net} {t : Nat} (h0 : net t = ⟨[], .up⟩) (h1 : net (t + 1) = ⟨[0, 0, 0, 1, 1], .up⟩) (h2 : net (t + 2) = ⟨[], .up⟩)
    (h3 : net (t + 3) = ⟨[], .up⟩) (h4 : net (t + 4) = ⟨[], .up⟩) (h5 : net (t + 5) = ⟨[], .up⟩) (h6 : net (t + 6) = ⟨[], .up⟩) :
    readStream net ⟨[], t⟩ = (some ([], 1, 0), ⟨[], t + 7⟩) ∧ readStreamTime net lazy ⟨[], t⟩ = 300 := by
  have hl : ofBe (padTo 4 [0, 0, 0, 1]) = 1 := by decide
  constructor
  · have hp : padTo 1 [1] = [1] := rfl
    simp [readStream, Conn.setReadTimeout, hasMessages, Conn.peek, Conn.read, Conn.advance, readFramed, bodyLoop, peekAndRead_zero, h0, h1, h2, h3, h4,
      h5, h6, hl, hp, arrivals]
  · simp [readStreamTime, Conn.setReadTimeout, hasMessages, Conn.peek, Conn.read, Conn.advance, readFramedTime, bodyLoopTime, peekAndRead_zero,
      peekAndReadTime, h0, h1, h2, h3, h4, h5, hl, Conn.wait, lazy, countOr0]

/-- One round of the loop with such a peer. -/
theorem slow_step (m : Build) {net : Net} {s : DState} (hd : s.buf = ⟨[], 1, 1⟩)
    (h : readStream net s.peer.conn = (some ([], 1, 0), ⟨[], s.peer.conn.t + 7⟩)) :
    ∃ s', execStep m net (.block 16384 0 16384) s = .again s' ∧ s'.peer.conn = ⟨[], s.peer.conn.t + 7⟩ ∧ s'.buf = ⟨[], 1, 1⟩ := by
  have hn : Message.newRaw [] 0 1 = .ok ⟨1, 0, .nothing⟩ := rfl
  refine ⟨⟨({ s.peer with conn := ⟨[], s.peer.conn.t + 7⟩ } : Peer).applyMessage ⟨1, 0, .nothing⟩, ⟨[], 1, 1⟩, 1⟩, ?_, ?_, rfl⟩
  · unfold execStep Peer.readMessage
    rw [h]
    simp only [hn, hd]
    rfl
  · rw [applyMessage_conn]

/-- C89 is false for peers that never stop sending: with five bytes every 0.3 seconds a peer keeps a worker waiting for any time. -/
theorem C89_refuted (m : Build) : ∃ net : Net, (∀ f, (arrivals net 0 (7 * f + 8)).length ≤ 5 * (f + 1)) ∧
    ∀ f, (∃ s, execRun m net (.block 16384 0 16384) f ⟨readyPeer, ⟨[], 1, 0⟩, 0⟩ = .again s) ∧
      execRunTime m net lazy (.block 16384 0 16384) f ⟨readyPeer, ⟨[], 1, 0⟩, 0⟩ = 300 * f := by
  have later : ∀ t k, t = 8 + 7 * k → slowPeer t = ⟨[], .up⟩ ∧ slowPeer (t + 1) = ⟨[0, 0, 0, 1, 1], .up⟩ ∧ slowPeer (t + 2) = ⟨[], .up⟩ ∧
      slowPeer (t + 3) = ⟨[], .up⟩ ∧ slowPeer (t + 4) = ⟨[], .up⟩ ∧ slowPeer (t + 5) = ⟨[], .up⟩ ∧ slowPeer (t + 6) = ⟨[], .up⟩ := by
    intro t k e
    unfold slowPeer
    refine ⟨if_neg (by omega), if_pos (by omega), if_neg (by omega), if_neg (by omega), if_neg (by omega), if_neg (by omega), if_neg (by omega)⟩
  refine ⟨slowPeer, fun f => ?_, fun f => ?_⟩
  · have : ∀ n k, (arrivals slowPeer (8 + 7 * k) (7 * n)).length = 5 * n := by
      intro n
      induction n with
      | zero => intro k; rfl
      | succ n ih =>
        intro k
        obtain ⟨h0, h1, h2, h3, h4, h5, h6⟩ := later _ k rfl
        have e : 7 * (n + 1) = 7 * n + 1 + 1 + 1 + 1 + 1 + 1 + 1 := by omega
        rw [e]
        simp only [arrivals, Nat.add_assoc, Nat.reduceAdd]
        rw [← Nat.add_assoc 8] at *
        have := ih (k + 1)
        rw [show 8 + 7 * (k + 1) = 8 + 7 * k + 7 by omega] at this
        simp only [← Nat.add_assoc 8, h0, h1, h2, h3, h4, h5, h6, List.length_append, this]
        simp
        omega
    have e : ∀ n, (arrivals slowPeer 0 (n + 8)).length = 5 + (arrivals slowPeer 8 n).length := by
      intro n
      simp [arrivals, slowPeer]
      omega
    rw [e, show 8 = 8 + 7 * 0 from rfl, this]
    omega
  · have key : ∀ f k (s : DState), s.peer.conn = ⟨[], 8 + 7 * k⟩ → s.buf = ⟨[], 1, 1⟩ →
        (∃ s', execRun m slowPeer (.block 16384 0 16384) f s = .again s') ∧ execRunTime m slowPeer lazy (.block 16384 0 16384) f s = 300 * f := by
      intro f
      induction f with
      | zero => intro k s _ _; exact ⟨⟨s, rfl⟩, rfl⟩
      | succ f ih =>
        intro k s hc hd
        obtain ⟨h0, h1, h2, h3, h4, h5, h6⟩ := later _ k rfl
        obtain ⟨hr, ht⟩ := slow_read h0 h1 h2 h3 h4 h5 h6
        obtain ⟨s', e, hc', hd'⟩ := slow_step m (net := slowPeer) (s := s) hd (by rw [hc]; exact hr)
        obtain ⟨⟨s'', g1⟩, g2⟩ := ih (k + 1) s' (by rw [hc', hc]; simp only []; congr 1) hd'
        refine ⟨⟨s'', ?_⟩, ?_⟩
        · rw [execRun, e]; exact g1
        · rw [execRunTime, e, hc, ht]; simp only []; omega
    cases f with
    | zero => exact ⟨⟨_, rfl⟩, rfl⟩
    | succ f =>
      obtain ⟨s1, e, hc, hd⟩ : ∃ s1, execStep m slowPeer (.block 16384 0 16384) ⟨readyPeer, ⟨[], 1, 0⟩, 0⟩ = .again s1 ∧
          s1.peer.conn = ⟨[], 8 + 7 * 0⟩ ∧ s1.buf = ⟨[], 1, 1⟩ := by
        cases m <;> exact ⟨_, rfl, rfl, rfl⟩
      obtain ⟨⟨s'', g1⟩, g2⟩ := key f 0 s1 hc hd
      refine ⟨⟨s'', ?_⟩, ?_⟩
      · rw [execRun, e]; exact g1
      · rw [execRunTime, e, show readStreamTime slowPeer lazy readyPeer.conn = 300 by decide +kernel]; simp only []; omega

end RustBit
