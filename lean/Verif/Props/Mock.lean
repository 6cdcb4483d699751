/-
C117: the mock stream of the tests stands for a connection whose peer sends and closes.
-/
import Verif.Model.Mock
import Verif.Spec.Mock
import Verif.Props.Arrival

namespace RustBit
open Spec

namespace MockStream

/-- One use of a mock stream: what a read or a peek gives, what a pop gives, and the stream afterwards. -/
def use (s : MockStream) : Use → Option Bytes × Option Bytes × MockStream
  | .read n => (some (s.read n).1, none, (s.read n).2)
  | .peek n => (some (s.peek n).1, none, (s.peek n).2)
  | .write bs => (none, none, (s.write bs).2)
  | .timeout => (none, none, s)
  | .push bs => (none, none, s.pushBytesToRead bs)
  | .pop => (none, some s.popBytesWritten.1, s.popBytesWritten.2)

/-- A mock stream after some uses. -/
def after (s : MockStream) : List Use → MockStream
  | [] => s
  | u :: us => (s.use u).2.2.after us

/-- What the reads and peeks among some uses give. -/
def answers (s : MockStream) : List Use → List Bytes
  | [] => []
  | u :: us => (s.use u).1.toList ++ (s.use u).2.2.answers us

/-- What the pops among some uses give. -/
def popped (s : MockStream) : List Use → List Bytes
  | [] => []
  | u :: us => (s.use u).2.1.toList ++ (s.use u).2.2.popped us

/-- The bytes not read yet. -/
def unread (s : MockStream) : Bytes := s.reader.data.drop s.reader.pos

/-- The positions are inside the data, that of the writer at its end. -/
def Sound (s : MockStream) : Prop := s.reader.pos ≤ s.reader.data.length ∧ s.writer.pos = s.writer.data.length

theorem sound_new : new.Sound := ⟨Nat.le_refl _, rfl⟩

theorem read_fst (s : MockStream) (n : Nat) : (s.read n).1 = s.unread.take n := rfl
theorem peek_fst (s : MockStream) (n : Nat) : (s.peek n).1 = s.unread.take n := rfl
theorem peek_snd (s : MockStream) (n : Nat) : (s.peek n).2 = s := rfl

theorem read_unread (s : MockStream) (n : Nat) : (s.read n).2.unread = s.unread.drop n := by
  show s.reader.data.drop (s.reader.pos + ((s.reader.data.drop s.reader.pos).take n).length) = (s.reader.data.drop s.reader.pos).drop n
  rw [List.drop_drop, List.length_take, List.length_drop]
  rcases Nat.le_total n (s.reader.data.length - s.reader.pos) with h | h
  · rw [Nat.min_eq_left h]
  · rw [Nat.min_eq_right h, List.drop_eq_nil_of_le (by omega), List.drop_eq_nil_of_le (by omega)]

theorem read_sound {s : MockStream} (h : s.Sound) (n : Nat) : (s.read n).2.Sound := by
  refine ⟨?_, h.2⟩
  show s.reader.pos + ((s.reader.data.drop s.reader.pos).take n).length ≤ s.reader.data.length
  have := h.1
  rw [List.length_take, List.length_drop]; omega

theorem push_unread {s : MockStream} (h : s.Sound) (bs : Bytes) : (s.pushBytesToRead bs).unread = s.unread ++ bs := by
  unfold pushBytesToRead unread
  have := h.1
  by_cases e : s.reader.pos = s.reader.data.length
  · simp [e, Cursor.new]
  · simp only [e, if_false]
    rw [List.drop_append_of_le_length this]

theorem push_sound {s : MockStream} (h : s.Sound) (bs : Bytes) : (s.pushBytesToRead bs).Sound := by
  refine ⟨?_, h.2⟩
  unfold pushBytesToRead
  have := h.1
  by_cases e : s.reader.pos = s.reader.data.length
  · simp [e, Cursor.new]
  · simp only [e, if_false, List.length_append]; omega

theorem write_written {s : MockStream} (h : s.Sound) (bs : Bytes) :
    (s.write bs).2.writer = ⟨s.writer.data ++ bs, s.writer.data.length + bs.length⟩ := by
  show (⟨(padTo s.writer.pos s.writer.data).take s.writer.pos ++ bs ++ s.writer.data.drop (s.writer.pos + bs.length), s.writer.pos + bs.length⟩ : Cursor) = _
  rw [h.2]
  simp [padTo]

theorem write_sound {s : MockStream} (h : s.Sound) (bs : Bytes) : (s.write bs).2.Sound := by
  refine ⟨h.1, ?_⟩
  rw [write_written h]; simp

theorem use_sound {s : MockStream} (h : s.Sound) (u : Use) : (s.use u).2.2.Sound := by
  cases u with
  | read n => exact read_sound h n
  | peek n => exact h
  | write bs => exact write_sound h bs
  | timeout => exact h
  | push bs => exact push_sound h bs
  | pop => exact ⟨h.1, rfl⟩

theorem after_sound {s : MockStream} (h : s.Sound) : ∀ us, (s.after us).Sound := by
  intro us
  induction us generalizing s with
  | nil => exact h
  | cons u us ih => exact ih (use_sound h u)

end MockStream

open MockStream

/-- C117: whatever is done to a new mock stream, its reads and peeks give the pushed bytes in order, each once, and its pops what has been written,
in order, each once. -/
theorem C117_queue (us : List Use) :
    MockStream.new.answers us = reads [] us ∧ MockStream.new.popped us = pops [] us ∧ (MockStream.new.after us).unread = inQueue [] us := by
  have : ∀ (us : List Use) (s : MockStream), s.Sound →
      s.answers us = reads s.unread us ∧ s.popped us = pops s.writer.data us ∧ (s.after us).unread = inQueue s.unread us := by
    intro us
    induction us with
    | nil => intro s _; exact ⟨rfl, rfl, rfl⟩
    | cons u us ih =>
      intro s hs
      have h := ih (s.use u).2.2 (use_sound hs u)
      cases u with
      | read n =>
        have e : (s.use (.read n)).2.2.unread = s.unread.drop n := read_unread s n
        rw [e] at h
        exact ⟨congrArg (s.unread.take n :: ·) h.1, h.2.1, h.2.2⟩
      | peek n => exact ⟨congrArg (s.unread.take n :: ·) h.1, h.2.1, h.2.2⟩
      | write bs =>
        have e : (s.use (.write bs)).2.2.writer.data = s.writer.data ++ bs := by
          show (s.write bs).2.writer.data = _
          rw [write_written hs]
        rw [e] at h
        exact h
      | timeout => exact h
      | push bs =>
        have e : (s.use (.push bs)).2.2.unread = s.unread ++ bs := push_unread hs bs
        rw [e] at h
        exact h
      | pop => exact ⟨h.1, congrArg (s.writer.data :: ·) h.2.1, h.2.2⟩
  exact this us .new sound_new

example : MockStream.new.answers [.push [1, 2], .peek 1, .read 3, .read 1, .push [3], .read 5] = [[1], [1, 2], [], [3]] ∧
    MockStream.new.popped [.write [7], .write [8, 9], .pop, .write [1], .pop, .pop] = [[7, 8, 9], [1], []] := by decide

theorem push_count {s : MockStream} (h : s.Sound) (bs : Bytes) :
    (s.pushBytesToRead bs).peekBytesToRead = if s.unread = [] then bs.length else s.peekBytesToRead + bs.length := by
  have h1 := h.1
  have e : s.unread = [] ↔ s.reader.pos = s.reader.data.length := by
    unfold unread
    rw [List.drop_eq_nil_iff]; omega
  unfold pushBytesToRead peekBytesToRead
  by_cases hp : s.reader.pos = s.reader.data.length
  · simp [e.2 hp, hp, Cursor.new]
  · simp [hp, mt e.1 hp]

/-- C117: which number of bytes to be read a mock stream reports: that of the bytes pushed since a push last found none waiting. -/
theorem C117_count (us : List Use) : (MockStream.new.after us).peekBytesToRead = counted [] 0 us := by
  have : ∀ (us : List Use) (s : MockStream), s.Sound → (s.after us).peekBytesToRead = counted s.unread s.peekBytesToRead us := by
    intro us
    induction us with
    | nil => intro s _; rfl
    | cons u us ih =>
      intro s hs
      have h := ih (s.use u).2.2 (use_sound hs u)
      cases u with
      | read n =>
        have e : (s.use (.read n)).2.2.unread = s.unread.drop n := read_unread s n
        rw [e] at h
        exact h
      | peek n => exact h
      | write bs => exact h
      | timeout => exact h
      | push bs =>
        have e : (s.use (.push bs)).2.2.unread = s.unread ++ bs := push_unread hs bs
        have e2 : (s.use (.push bs)).2.2.peekBytesToRead = if s.unread = [] then bs.length else s.peekBytesToRead + bs.length := push_count hs bs
        rw [e, e2] at h
        exact h
      | pop => exact h
  exact this us .new sound_new

example : (MockStream.new.after [.push [1, 2, 3], .read 2, .push [4], .read 2, .push [5, 6]]).peekBytesToRead = 2 := by decide

/-- C117: the number of bytes to be read that a mock stream reports counts bytes already read. -/
theorem C117_refuted_count : ∃ us, (MockStream.new.after us).unread = [] ∧ (MockStream.new.after us).peekBytesToRead = 4 :=
  ⟨[.push [1, 2, 3, 4], .read 4], rfl, rfl⟩

/-- What the reads and peeks among some uses give on a connection; pushes and pops are not system calls. -/
def Conn.answers (net : Net) (c : Conn) : List Use → List (Option Bytes)
  | [] => []
  | .read n :: us => (c.read net n).1 :: Conn.answers net (c.read net n).2 us
  | .peek n :: us => (c.peek net n).1 :: Conn.answers net (c.peek net n).2 us
  | .write _ :: us => Conn.answers net (c.writeAll net).2 us
  | .timeout :: us => Conn.answers net (c.setReadTimeout net).2 us
  | .push _ :: us => Conn.answers net c us
  | .pop :: us => Conn.answers net c us

theorem peek_eof {net : Net} {c : Conn} (h : (net c.t).kind = .eof) (n : Nat) :
    c.peek net n = (some ((c.buf ++ (net c.t).arrive).take n), ⟨c.buf ++ (net c.t).arrive, c.t + 1⟩) := by
  simp [Conn.peek, h, Conn.advance]

theorem read_eof {net : Net} {c : Conn} (h : (net c.t).kind = .eof) (n : Nat) :
    c.read net n = (some ((c.buf ++ (net c.t).arrive).take n), ⟨(c.buf ++ (net c.t).arrive).drop n, c.t + 1⟩) := by
  rw [Conn.read, peek_eof h]

/-- C117: whatever is done to a new mock stream, its reads and peeks give what they would give on a connection whose peer closes its side having sent the
pushed bytes when they are pushed. -/
theorem C117_connection (us : List Use) :
    Conn.answers (closing (deliveries [] us)) ⟨[], 0⟩ us = (MockStream.new.answers us).map some := by
  rw [(C117_queue us).1]
  have : ∀ (us : List Use) (net : Net) (acc q : Bytes) (t : Nat), (∀ i, net (t + i) = ⟨(deliveries acc us).getD i [], .eof⟩) →
      Conn.answers net ⟨q, t⟩ us = (reads (q ++ acc) us).map some := by
    intro us
    induction us with
    | nil => intro net acc q t _; rfl
    | cons u us ih =>
      intro net acc q t hn
      have call : (∀ i, deliveries acc (u :: us) = acc :: deliveries [] us → net (t + 1 + i) = ⟨(deliveries [] us).getD i [], .eof⟩) := by
        intro i e
        rw [show t + 1 + i = t + (i + 1) by omega, hn (i + 1), e]; rfl
      cases u with
      | read n =>
        have h0 : net t = ⟨acc, .eof⟩ := hn 0
        have h1 := ih net [] ((q ++ acc).drop n) (t + 1) (fun i => call i rfl)
        rw [List.append_nil] at h1
        show (Conn.read net ⟨q, t⟩ n).1 :: Conn.answers net (Conn.read net ⟨q, t⟩ n).2 us = _
        rw [read_eof (c := ⟨q, t⟩) (by rw [h0])]
        simp only [h0]
        rw [h1]; rfl
      | peek n =>
        have h0 : net t = ⟨acc, .eof⟩ := hn 0
        have h1 := ih net [] (q ++ acc) (t + 1) (fun i => call i rfl)
        rw [List.append_nil] at h1
        show (Conn.peek net ⟨q, t⟩ n).1 :: Conn.answers net (Conn.peek net ⟨q, t⟩ n).2 us = _
        rw [peek_eof (c := ⟨q, t⟩) (by rw [h0])]
        simp only [h0]
        rw [h1]; rfl
      | write bs =>
        have h0 : net t = ⟨acc, .eof⟩ := hn 0
        have h1 := ih net [] (q ++ acc) (t + 1) (fun i => call i rfl)
        rw [List.append_nil] at h1
        show Conn.answers net ⟨q ++ (net t).arrive, t + 1⟩ us = _
        rw [h0]; exact h1
      | timeout =>
        have h0 : net t = ⟨acc, .eof⟩ := hn 0
        have h1 := ih net [] (q ++ acc) (t + 1) (fun i => call i rfl)
        rw [List.append_nil] at h1
        show Conn.answers net ⟨q ++ (net t).arrive, t + 1⟩ us = _
        rw [h0]; exact h1
      | push bs =>
        have h1 := ih net (acc ++ bs) q t hn
        rw [← List.append_assoc] at h1
        exact h1
      | pop => exact ih net acc q t hn
  exact this us _ [] [] 0 (fun i => by rw [Nat.zero_add]; rfl)

example : Conn.answers (closing (deliveries [] [.timeout, .push [1, 2], .peek 1, .read 3, .read 1, .push [3], .read 5])) ⟨[], 0⟩
    [.timeout, .push [1, 2], .peek 1, .read 3, .read 1, .push [3], .read 5] = [some [1], some [1, 2], some [], some [3]] := by decide

/-! ### The code under test -/

/-- Two streams on which the same calls give the same. -/
structure SameCalls (R : StreamInterface → StreamInterface → Prop) : Prop where
  read : ∀ a b n, R a b → (a.read n).1 = (b.read n).1 ∧ R (a.read n).2 (b.read n).2
  peek : ∀ a b n, R a b → (a.peek n).1 = (b.peek n).1 ∧ R (a.peek n).2 (b.peek n).2
  timeout : ∀ a b, R a b → a.setReadTimeout.1 = b.setReadTimeout.1 ∧ R a.setReadTimeout.2 b.setReadTimeout.2

namespace SameCalls
variable {R : StreamInterface → StreamInterface → Prop}

theorem hasMessages (h : SameCalls R) {a b : StreamInterface} (hr : R a b) : a.hasMessages.1 = b.hasMessages.1 ∧ R a.hasMessages.2 b.hasMessages.2 := by
  have := h.peek a b 1 hr
  unfold StreamInterface.hasMessages
  cases ha : a.peek 1 with
  | mk ra a' =>
    cases hb : b.peek 1 with
    | mk rb b' =>
      rw [ha, hb] at this
      obtain ⟨e, h2⟩ := this
      simp only at e h2
      subst e
      cases ra <;> exact ⟨rfl, h2⟩

theorem peekAndRead (h : SameCalls R) {a b : StreamInterface} (hr : R a b) (n : Nat) :
    (a.peekAndRead n).1 = (b.peekAndRead n).1 ∧ R (a.peekAndRead n).2 (b.peekAndRead n).2 := by
  have h1 := h.peek a b n hr
  unfold StreamInterface.peekAndRead
  cases ha : a.peek n with
  | mk ra a' =>
    cases hb : b.peek n with
    | mk rb b' =>
      rw [ha, hb] at h1
      obtain ⟨e, h2⟩ := h1
      simp only at e h2
      subst e
      have h3 := h.read a' b' n h2
      by_cases hc : countOr0 ra = n
      · simp only [hc, if_true]
        cases ha2 : a'.read n with
        | mk ra2 a2 =>
          cases hb2 : b'.read n with
          | mk rb2 b2 =>
            rw [ha2, hb2] at h3
            obtain ⟨e, h4⟩ := h3
            simp only at e h4
            subst e
            by_cases hc2 : countOr0 ra2 = n
            · simp only [hc2, if_true]; exact ⟨trivial, h4⟩
            · simp only [hc2, if_false]; exact ⟨trivial, h4⟩
      · simp only [hc, if_false]; exact ⟨trivial, h2⟩

theorem bodyLoop (h : SameCalls R) (n : Nat) : ∀ k {a b : StreamInterface}, R a b →
    (StreamInterface.bodyLoop k a n).1 = (StreamInterface.bodyLoop k b n).1 ∧ R (StreamInterface.bodyLoop k a n).2 (StreamInterface.bodyLoop k b n).2 := by
  intro k
  induction k with
  | zero => intro a b hr; exact ⟨rfl, hr⟩
  | succ k ih =>
    intro a b hr
    have h1 := h.peekAndRead hr n
    unfold StreamInterface.bodyLoop
    cases ha : a.peekAndRead n with
    | mk ra a' =>
      cases hb : b.peekAndRead n with
      | mk rb b' =>
        rw [ha, hb] at h1
        obtain ⟨e, h2⟩ := h1
        simp only at e h2
        subst e
        cases ra with
        | some x => exact ⟨rfl, h2⟩
        | none => exact ih h2

theorem readFramed (h : SameCalls R) {a b : StreamInterface} (hr : R a b) : a.readFramed.1 = b.readFramed.1 ∧ R a.readFramed.2 b.readFramed.2 := by
  have h1 := h.read a b 4 hr
  unfold StreamInterface.readFramed
  cases ha : a.read 4 with
  | mk ra a' =>
    cases hb : b.read 4 with
    | mk rb b' =>
      rw [ha, hb] at h1
      obtain ⟨e, h2⟩ := h1
      simp only at e h2
      subst e
      cases ra with
      | none => exact ⟨rfl, h2⟩
      | some b4 =>
        have h3 := h.read a' b' 1 h2
        simp only
        cases ha2 : a'.read 1 with
        | mk ra2 a2 =>
          cases hb2 : b'.read 1 with
          | mk rb2 b2 =>
            rw [ha2, hb2] at h3
            obtain ⟨e, h4⟩ := h3
            simp only at e h4
            subst e
            cases ra2 with
            | none => exact ⟨rfl, h4⟩
            | some b1 =>
              simp only
              by_cases hz : ofBe (padTo 4 b4) = 0
              · simp only [hz, if_true]; exact ⟨trivial, h4⟩
              · simp only [hz, if_false]
                have h5 := h.bodyLoop (ofBe (padTo 4 b4) - 1) 39 h4
                cases ha3 : StreamInterface.bodyLoop 39 a2 (ofBe (padTo 4 b4) - 1) with
                | mk ra3 a3 =>
                  cases hb3 : StreamInterface.bodyLoop 39 b2 (ofBe (padTo 4 b4) - 1) with
                  | mk rb3 b3 =>
                    rw [ha3, hb3] at h5
                    obtain ⟨e, h6⟩ := h5
                    simp only at e h6
                    subst e
                    cases ra3 <;> exact ⟨rfl, h6⟩

theorem readStream (h : SameCalls R) {a b : StreamInterface} (hr : R a b) : a.readStream.1 = b.readStream.1 ∧ R a.readStream.2 b.readStream.2 := by
  have h1 := h.timeout a b hr
  unfold StreamInterface.readStream
  cases ha : a.setReadTimeout with
  | mk ra a' =>
    cases hb : b.setReadTimeout with
    | mk rb b' =>
      rw [ha, hb] at h1
      obtain ⟨e, h2⟩ := h1
      simp only at e h2
      subst e
      cases ra with
      | false => exact ⟨rfl, h2⟩
      | true =>
        have h3 := h.hasMessages h2
        simp only
        cases ha2 : a'.hasMessages with
        | mk ra2 a2 =>
          cases hb2 : b'.hasMessages with
          | mk rb2 b2 =>
            rw [ha2, hb2] at h3
            obtain ⟨e, h4⟩ := h3
            simp only at e h4
            subst e
            cases ra2 with
            | false => exact ⟨rfl, h4⟩
            | true =>
              have h5 := h.peek a2 b2 68 h4
              simp only
              cases ha3 : a2.peek 68 with
              | mk ra3 a3 =>
                cases hb3 : b2.peek 68 with
                | mk rb3 b3 =>
                  rw [ha3, hb3] at h5
                  obtain ⟨e, h6⟩ := h5
                  simp only at e h6
                  subst e
                  cases ra3 with
                  | none => exact h.readFramed h6
                  | some p =>
                    simp only
                    by_cases hp : p.length = 68 ∧ p.head? = some 0x13
                    · simp only [hp, and_self, if_true]
                      have h7 := h.read a3 b3 68 h6
                      cases ha4 : a3.read 68 with
                      | mk ra4 a4 =>
                        cases hb4 : b3.read 68 with
                        | mk rb4 b4 =>
                          rw [ha4, hb4] at h7
                          obtain ⟨e, h8⟩ := h7
                          simp only at e h8
                          subst e
                          cases ra4 <;> exact ⟨rfl, h8⟩
                    · rw [if_neg hp, if_neg hp]; exact h.readFramed h6

end SameCalls

/-! A TCP stream behaves as in `Model/Stream`. -/

theorem tcp_peekAndRead (net : Net) (c : Conn) (n : Nat) :
    (StreamInterface.tcp net c).peekAndRead n = ((peekAndRead net c n).1, .tcp net (peekAndRead net c n).2) := by
  unfold StreamInterface.peekAndRead peekAndRead
  cases h1 : c.peek net n with
  | mk r1 c1 =>
    simp only [StreamInterface.peek, h1]
    by_cases hc : countOr0 r1 = n
    · simp only [hc, if_true]
      cases h2 : c1.read net n with
      | mk r2 c2 =>
        simp only [StreamInterface.read, h2]
        split <;> rfl
    · simp only [hc, if_false]

theorem tcp_bodyLoop (net : Net) (n : Nat) : ∀ (k : Nat) (c : Conn),
    StreamInterface.bodyLoop k (.tcp net c) n = ((bodyLoop net k c n).1, .tcp net (bodyLoop net k c n).2) := by
  intro k
  induction k with
  | zero => intro c; rfl
  | succ k ih =>
    intro c
    unfold StreamInterface.bodyLoop bodyLoop
    rw [tcp_peekAndRead]
    cases h1 : peekAndRead net c n with
    | mk r1 c1 =>
      cases r1 with
      | some x => rfl
      | none => exact ih c1

theorem tcp_readFramed (net : Net) (c : Conn) :
    (StreamInterface.tcp net c).readFramed = ((readFramed net c).1, .tcp net (readFramed net c).2) := by
  unfold StreamInterface.readFramed readFramed
  cases h1 : c.read net 4 with
  | mk r1 c1 =>
    simp only [StreamInterface.read, h1]
    cases r1 with
    | none => rfl
    | some b4 =>
      simp only
      cases h2 : c1.read net 1 with
      | mk r2 c2 =>
        simp only
        cases r2 with
        | none => rfl
        | some b1 =>
          simp only
          split
          · rfl
          · rw [tcp_bodyLoop]
            cases h3 : bodyLoop net 39 c2 (ofBe (padTo 4 b4) - 1) with
            | mk r3 c3 => cases r3 <;> rfl

theorem tcp_readStream (net : Net) (c : Conn) :
    (StreamInterface.tcp net c).readStream = ((readStream net c).1, .tcp net (readStream net c).2) := by
  unfold StreamInterface.readStream readStream
  cases h1 : c.setReadTimeout net with
  | mk r1 c1 =>
    simp only [StreamInterface.setReadTimeout, h1]
    cases r1 with
    | false => rfl
    | true =>
      simp only [StreamInterface.hasMessages, hasMessages, StreamInterface.peek]
      cases h2 : c1.peek net 1 with
      | mk r2 c2 =>
        simp only
        cases r2 with
        | none => rfl
        | some bs =>
          simp only
          cases hd : decide (bs.length ≠ 0) with
          | false => rfl
          | true =>
            simp only
            cases h3 : c2.peek net 68 with
            | mk r3 c3 =>
              simp only
              cases r3 with
              | none => exact tcp_readFramed net c3
              | some p =>
                simp only
                by_cases hp : p.length = 68 ∧ p.head? = some 0x13
                · rw [if_pos hp, if_pos hp]
                  simp only [StreamInterface.read]
                  cases h4 : c3.read net 68 with
                  | mk r4 c4 => cases r4 <;> rfl
                · rw [if_neg hp, if_neg hp]; exact tcp_readFramed net c3

/-- A mock stream and a connection with the same bytes, whose peer has closed. -/
def MockTcp (a b : StreamInterface) : Prop := ∃ s c, a = .mocked s ∧ b = .tcp (closing []) c ∧ s.unread = c.buf

theorem mockTcp_alike : SameCalls MockTcp where
  read := by
    rintro a b n ⟨s, c, rfl, rfl, e⟩
    have h := read_eof (net := closing []) (c := c) rfl n
    have h2 : ((closing []) c.t).arrive = [] := rfl
    rw [h2, List.append_nil] at h
    simp only [StreamInterface.read, h]
    exact ⟨by rw [read_fst, e], _, _, rfl, rfl, by rw [read_unread, e]⟩
  peek := by
    rintro a b n ⟨s, c, rfl, rfl, e⟩
    have h := peek_eof (net := closing []) (c := c) rfl n
    have h2 : ((closing []) c.t).arrive = [] := rfl
    rw [h2, List.append_nil] at h
    simp only [StreamInterface.peek, h]
    exact ⟨by rw [peek_fst, e], _, _, rfl, rfl, by rw [peek_snd]; exact e⟩
  timeout := by
    rintro a b ⟨s, c, rfl, rfl, e⟩
    refine ⟨rfl, s, ⟨c.buf ++ [], c.t + 1⟩, rfl, rfl, by rw [e, List.append_nil]⟩

/-- `k` readings of messages from a stream. -/
def StreamInterface.readTimes : Nat → StreamInterface → List (Option (Bytes × UInt8 × Nat)) × StreamInterface
  | 0, s => ([], s)
  | k + 1, s => (s.readStream.1 :: (readTimes k s.readStream.2).1, (readTimes k s.readStream.2).2)

/-- C117: messages read one after the other from a mock stream are those read from a connection that has received the same bytes and whose peer has
closed it. -/
theorem C117_messages (s : MockStream) (t k : Nat) :
    ((StreamInterface.mocked s).readTimes k).1 = (readTimes (closing []) k ⟨s.unread, t⟩).1 := by
  have : ∀ (k : Nat) (a : StreamInterface) (c : Conn), MockTcp a (.tcp (closing []) c) → (a.readTimes k).1 = (readTimes (closing []) k c).1 := by
    intro k
    induction k with
    | zero => intro a c _; rfl
    | succ k ih =>
      intro a c h
      have h1 := mockTcp_alike.readStream h
      rw [tcp_readStream] at h1
      have h2 := ih _ _ h1.2
      show a.readStream.1 :: (a.readStream.2.readTimes k).1 = (readStream (closing []) c).1 :: (readTimes (closing []) k (readStream (closing []) c).2).1
      rw [h1.1, h2]
  exact this k _ _ ⟨s, _, rfl, rfl, rfl⟩

/-- C117: messages pushed to a mock stream, in whatever portions, are read back in order. -/
theorem C117_messages_pushed (us : List Use) (msgs : List (UInt8 × Bytes × Bytes)) (rest : Bytes)
    (hm : ∀ m ∈ msgs, IsFrame m.1 m.2.1 m.2.2 ∧ m.2.2.head? ≠ some 19) (hw : inQueue [] us = (msgs.map (fun m => m.2.2)).flatten ++ rest) :
    ((StreamInterface.mocked (MockStream.new.after us)).readTimes msgs.length).1 = msgs.map (fun m => some (m.2.1, m.1, m.2.1.length)) := by
  rw [C117_messages _ 0, (C117_queue us).2.2, hw]
  obtain ⟨c', h, -⟩ := C28_sequence_partial (closing []) (fun t => by simp [closing]) rest msgs ⟨_, 0⟩ hm rfl
  rw [h]

example : ((StreamInterface.mocked (MockStream.new.after [.push [0, 0, 0, 1, 1, 0, 0], .push [0, 3, 4, 9, 8]])).readTimes 3).1 =
    [some ([], 1, 0), some ([9, 8], 4, 2), none] := by decide +kernel

/-- C117 is false for connections in general: a message that a mock stream gives as it is, whatever the portions it is pushed in, is given as something else
on a connection that delivers the same bytes and nothing else, without failure. -/
theorem C117_refuted : ∃ (us : List Use) (net : Net),
    inQueue [] us = [0, 0, 0, 1, 1] ∧ (StreamInterface.mocked (MockStream.new.after us)).readStream.1 = some ([], 1, 0) ∧
    (∀ t, (net t).kind = .up) ∧ (∀ k, arrivals net 0 (5 + k) = [0, 0, 0, 1, 1]) ∧
    (StreamInterface.tcp net ⟨[], 0⟩).readStream.1 = some ([], 0, 0) := by
  refine ⟨[.push [0, 0], .push [0, 1, 1]], segList [[0, 0], [], [], [], [0, 1, 1]], rfl, by decide +kernel, fun _ => rfl, fun k => ?_,
    by rw [tcp_readStream]; exact C30_refuted_split_header.1⟩
  have late : ∀ (k t : Nat), 5 ≤ t → arrivals (segList [[0, 0], [], [], [], [0, 1, 1]]) t k = [] := by
    intro k
    induction k with
    | zero => intro t _; rfl
    | succ k ih =>
      intro t ht
      obtain ⟨j, rfl⟩ : ∃ j, t = j + 5 := ⟨t - 5, by omega⟩
      show [] ++ arrivals _ (j + 5 + 1) k = []
      rw [List.nil_append]; exact ih _ (by omega)
  rw [Nat.add_comm]
  show [0, 0] ++ ([] ++ ([] ++ ([] ++ ([0, 1, 1] ++ arrivals _ 5 k)))) = _
  rw [late k 5 (Nat.le_refl _)]; rfl

/-- C117 for connections in general, exactly: what a mock stream gives for a message, a connection that delivers it without failure gives just when the
message is there in time. Missing: the others (refuted). -/
theorem C117_in_time_partial (s : MockStream) (net : Net) (c : Conn) (id : UInt8) (body frame : Bytes) (hfr : IsFrame id body frame)
    (h13 : frame.head? ≠ some 19) (hs : s.unread = frame) (h : Delivers net c frame) (hf : NoFailure net c.t 45) :
    (∃ c', (StreamInterface.tcp net c).readStream = ((StreamInterface.mocked s).readStream.1, .tcp net c') ∧ Took net c c' frame.length) ↔
      InTime net c frame.length := by
  rw [← C30_exact net c id body frame hfr h13 h hf]
  have e : (StreamInterface.mocked s).readStream.1 = some (body, id, body.length) := by
    have h1 := (mockTcp_alike.readStream ⟨s, ⟨frame, 0⟩, rfl, rfl, hs⟩).1
    rw [h1, tcp_readStream, C28_message_partial (closing []) ⟨frame, 0⟩ id body frame [] hfr h13 (by simp) (fun i _ => by simp [closing])]
  rw [tcp_readStream, e]
  constructor
  · rintro ⟨c', hc, ht⟩
    refine ⟨c', ?_, ht⟩
    rw [Prod.mk.injEq] at hc
    have h2 := hc.2
    simp only [StreamInterface.tcp.injEq, true_and] at h2
    exact Prod.ext hc.1 h2
  · rintro ⟨c', hc, ht⟩
    exact ⟨c', by rw [hc], ht⟩

/-- C117: the third kind of stream gives no message, and nothing can be sent on it. -/
theorem C117_nothing : StreamInterface.nothing.readStream = (none, .nothing) ∧ StreamInterface.nothing.sendMetadataHandshakeRequest = (false, .nothing) ∧
    ∀ bs, StreamInterface.nothing.writeStream bs = .nothing := ⟨rfl, rfl, fun _ => rfl⟩

/-- C117: all that is written to a mock stream arrives. -/
theorem C117_sent (us : List Use) (bs : Bytes) :
    ∃ s, (StreamInterface.mocked (MockStream.new.after us)).writeAll bs = (true, .mocked s) ∧
      s.peekBytesWritten = (MockStream.new.after us).peekBytesWritten ++ bs ∧ s.unread = (MockStream.new.after us).unread := by
  have hs := after_sound sound_new us
  by_cases e : bs = []
  · subst e; exact ⟨_, rfl, by simp, rfl⟩
  · refine ⟨((MockStream.new.after us).write bs).2, ?_, ?_, rfl⟩
    · simp only [StreamInterface.writeAll, if_neg e]
      exact congrArg (·, _) (decide_eq_true rfl)
    · show ((MockStream.new.after us).write bs).2.writer.data = _
      rw [write_written hs]; rfl

/-- `k` calls of a stream that fails. -/
def FailingMockStream.calls : Nat → FailingMockStream → List (Option Nat)
  | 0, _ => []
  | k + 1, s => s.error.1 :: FailingMockStream.calls k s.error.2

/-- C117: a stream made to fail `n` times fails at just its first `n` calls; made to fail a negative number of times, at all of them. -/
theorem C117_failing (k : Nat) : (∀ n : Nat, FailingMockStream.calls k ⟨n⟩ = List.replicate (min n k) none ++ List.replicate (k - n) (some 0)) ∧
    ∀ i : Int, i < 0 → FailingMockStream.calls k ⟨i⟩ = List.replicate k none := by
  constructor
  · induction k with
    | zero => intro n; simp [FailingMockStream.calls]
    | succ k ih =>
      intro n
      cases n with
      | zero =>
        have := ih 0
        simp only [Nat.zero_min, List.replicate_zero, List.nil_append, Nat.sub_zero] at this ⊢
        rw [List.replicate_succ, ← this]; rfl
      | succ n =>
        have hne : ((n + 1 : Nat) : Int) ≠ 0 := by omega
        have hpos : ((n + 1 : Nat) : Int) > 0 := by omega
        have he : (⟨((n + 1 : Nat) : Int)⟩ : FailingMockStream).error = (none, ⟨n⟩) := by
          simp only [FailingMockStream.error, if_neg hne, if_pos hpos]
          congr 2
          omega
        rw [FailingMockStream.calls, he]
        simp only
        rw [ih n, show min (n + 1) (k + 1) = min n k + 1 by omega, show k + 1 - (n + 1) = k - n by omega, List.replicate_succ]
        rfl
  · intro i hi
    have he : (⟨i⟩ : FailingMockStream).error = (none, ⟨i⟩) := by
      simp only [FailingMockStream.error, if_neg (show i ≠ 0 by omega), if_neg (show ¬ i > 0 by omega)]
    induction k with
    | zero => rfl
    | succ k ih => rw [FailingMockStream.calls, he, ih]; rfl

example : FailingMockStream.calls 4 ⟨2⟩ = [none, none, some 0, some 0] ∧ FailingMockStream.calls 2 ⟨-1⟩ = [none, none] := by decide

end RustBit
