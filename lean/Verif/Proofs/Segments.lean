/- Reading streams of messages that arrive in segments. -/
import Verif.Proofs.Transfer
import Verif.Spec.Segments

namespace RustBit
open Spec

/-! ### Waiting for a message -/

theorem after_length (net : Net) (c : Conn) (i j : Nat) (h : i ≤ j) : (c.after net i).buf.length ≤ (c.after net j).buf.length := by
  obtain ⟨d, rfl⟩ : ∃ d, j = i + d := ⟨j - i, by omega⟩
  simp only [Conn.after, arrivals_add, List.length_append]
  omega

theorem bodyLoop_waits {net : Net} {s : Bytes} (K : Nat) : ∀ {c : Conn}, NoFailure net c.t (K + 1) → Delivers net c s → 0 < K →
    s.length ≤ (c.after net K).buf.length →
    ∃ n r, bodyLoop net K c s.length = (some s, ⟨r, c.t + n⟩) ∧ c.buf ++ arrivals net c.t n = s ++ r := by
  induction K with
  | zero => intro c _ _ h; omega
  | succ K ih =>
    intro c hf hd _ hl
    rw [bodyLoop]
    by_cases h1 : s.length ≤ (c.after net 1).buf.length
    · obtain ⟨r, hr⟩ := delivers_take (delivers_after hd 1) h1
      by_cases hs : s = []
      · subst hs
        rw [List.length_nil, peekAndRead_zero]
        exact ⟨2, _, rfl, by simp⟩
      · have hb : c.buf ++ (net c.t).arrive = s ++ r := by simpa [Conn.after, arrivals] using hr
        have h0 : (net c.t).kind ≠ .fail := hf 0 (by omega)
        have h1 : (net (c.t + 1)).kind ≠ .fail := hf 1 (by omega)
        rw [peekAndRead, peek_ok h0 (by rw [hb]; simp [hs])]
        rw [hb, List.take_left' rfl]
        simp only [countOr0, if_true]
        have e : (c.advance net).buf ++ (net (c.advance net).t).arrive = s ++ (r ++ (net (c.t + 1)).arrive) := by
          simp only [Conn.advance]
          rw [hb, List.append_assoc]
        rw [read_ok (by exact h1) (by rw [e]; simp [hs]), e, List.take_left' rfl, List.drop_left' rfl]
        simp only [if_true, Option.getD_some]
        refine ⟨2, _, rfl, ?_⟩
        rw [show arrivals net c.t 2 = (net c.t).arrive ++ (net (c.t + 1)).arrive by simp [arrivals], ← List.append_assoc, hb, List.append_assoc]
    · have hp : peekAndRead net c s.length = (none, c.after net 1) := by
        unfold peekAndRead
        have hno : ∀ r, (r = none ∨ r = some ((c.after net 1).buf.take s.length)) → ¬ countOr0 r = s.length := by
          rintro r (rfl | rfl)
          · simp only [countOr0]; omega
          · simp only [countOr0, List.length_take]; omega
        rcases peek_cases net c s.length with hp | hp <;> rw [hp] <;> simp only
        · rw [if_neg (hno _ (.inl rfl))]
        · rw [if_neg (hno _ (.inr rfl))]
      rw [hp]
      simp only
      have hK : 0 < K := by
        rcases Nat.eq_zero_or_pos K with h0 | h0
        · subst h0; exact absurd hl h1
        · exact h0
      obtain ⟨n, r, e1, e2⟩ := ih (c := c.after net 1)
        (by
          intro i hi
          have := hf (1 + i) (by omega)
          simpa [Conn.after, Nat.add_assoc] using this)
        (delivers_after hd 1) hK (by rw [after_after, Nat.add_comm]; exact hl)
      refine ⟨1 + n, r, ?_, ?_⟩
      · rw [e1]; simp [Conn.after, Nat.add_assoc]
      · rw [arrivals_add, ← List.append_assoc]
        exact e2

theorem readFramed_waits {net : Net} {c : Conn} {id : UInt8} {body frame : Bytes} (hfr : IsFrame id body frame) (h : Delivers net c frame)
    (h5 : 5 ≤ c.buf.length) (hf : NoFailure net c.t 42) (hl : frame.length ≤ (c.after net 41).buf.length) :
    ∃ n r, readFramed net c = (some (body, id, body.length), ⟨r, c.t + n⟩) ∧ c.buf ++ arrivals net c.t n = frame ++ r := by
  obtain ⟨len, hlen, rfl⟩ := hfr
  have hl4 : len.length = 4 := hlen.1
  have hsplit : ∃ r, c.buf = len ++ id :: r := by
    have := h 0
    simp only [arrivals, List.append_nil] at this
    have e : len ++ id :: body = (len ++ [id]) ++ body := by simp
    have hh : (len ++ [id]) <+: c.buf := by
      rcases this with h | h
      · rw [e] at h
        exact List.prefix_of_prefix_length_le (List.prefix_append _ _) h (by simp; omega)
      · rw [e] at h
        exact (List.prefix_append _ _).trans h
    obtain ⟨r, hr⟩ := hh
    exact ⟨r, by rw [← hr]; simp⟩
  obtain ⟨r, hr⟩ := hsplit
  have hv : ofBe len = body.length + 1 := by rw [ofBe_eq_beValue]; exact hlen.2
  have hlne : len ≠ [] := by intro e; simp [e] at hl4
  have h0 : (net c.t).kind ≠ .fail := hf 0 (by omega)
  have h1 : (net (c.t + 1)).kind ≠ .fail := hf 1 (by omega)
  have e0 : c.buf ++ (net c.t).arrive = len ++ (id :: r ++ (net c.t).arrive) := by simp [hr]
  rw [readFramed, read_ok h0 (by rw [e0]; simp [hlne]), e0, List.take_left' hl4, List.drop_left' hl4]
  simp only [padTo_of_length hl4, hv]
  rw [read_ok (by exact h1) (by simp)]
  simp only [List.cons_append, List.take_succ_cons, List.take_zero, List.drop_succ_cons, List.drop_zero,
    padTo_of_length (n := 1) (bs := [id]) rfl, List.headD_cons, Nat.add_eq_zero_iff, Nat.one_ne_zero, and_false, if_false, Nat.add_sub_cancel]
  have e2 : (c.after net 2).buf = (len ++ [id]) ++ (r ++ (net c.t).arrive ++ (net (c.t + 1)).arrive) := by
    simp [Conn.after, hr, arrivals]
  have hd : Delivers net ⟨r ++ (net c.t).arrive ++ (net (c.t + 1)).arrive, c.t + 1 + 1⟩ body := by
    have h2 := delivers_after h 2
    have e' : len ++ id :: body = (len ++ [id]) ++ body := by simp
    rw [e'] at h2
    exact delivers_drop h2 e2
  obtain ⟨n, r', hb, hr'⟩ := bodyLoop_waits 39 (c := ⟨r ++ (net c.t).arrive ++ (net (c.t + 1)).arrive, c.t + 1 + 1⟩)
    (by
      intro i hi
      have := hf (2 + i) (by omega)
      simpa [Nat.add_assoc] using this) hd (by omega)
    (by
      have e41 : (c.after net 41).buf = (c.after net 2).buf ++ arrivals net (c.t + 2) 39 := by
        rw [show (41 : Nat) = 2 + 39 from rfl]
        simp [Conn.after, arrivals_add net c.t 2 39]
      rw [e41, e2] at hl
      simp only [List.length_append, List.length_cons, List.length_nil, Conn.after] at hl ⊢
      have : c.t + 1 + 1 = c.t + 2 := rfl
      rw [this]
      omega)
  rw [hb]
  refine ⟨2 + n, r', by simp [Nat.add_assoc], ?_⟩
  rw [arrivals_add, show arrivals net c.t 2 = (net c.t).arrive ++ (net (c.t + 1)).arrive by simp [arrivals]]
  simp only [List.append_assoc] at hr'
  rw [hr]
  simp only [List.append_assoc, List.cons_append]
  rw [show c.t + 2 = c.t + 1 + 1 from rfl, hr']

/-- A message whose header is there, and that arrives soon, is read. -/
theorem readStream_waits {net : Net} {c : Conn} {id : UInt8} {body frame : Bytes} (hfr : IsFrame id body frame) (h13 : frame.head? ≠ some 0x13)
    (h : Delivers net c frame) (h5 : 5 ≤ (c.after net 2).buf.length) (hf : NoFailure net c.t 45) (hl : frame.length ≤ (c.after net 44).buf.length) :
    ∃ n r, readStream net c = (some (body, id, body.length), ⟨r, c.t + n⟩) ∧ c.buf ++ arrivals net c.t n = frame ++ r ∧ 0 < n := by
  have h5' : 5 ≤ (c.after net 3).buf.length := Nat.le_trans h5 (after_length net c 2 3 (by omega))
  have hhead : ((c.after net 3).buf.take 68).head? ≠ some 0x13 := by
    have hf0 : frame ≠ [] := by
      obtain ⟨len, hl, rfl⟩ := hfr
      simp
    have := h 3
    cases hb : c.buf ++ arrivals net c.t 3 with
    | nil => simp only [Conn.after] at h5'; rw [hb] at h5'; simp at h5'
    | cons a l =>
      rw [hb] at this
      simp only [Conn.after, hb, List.take_succ_cons, List.head?_cons]
      rcases this with ⟨t, ht⟩ | ⟨t, ht⟩
      · rw [← ht] at h13; simpa using h13
      · cases frame with
        | nil => exact absurd rfl hf0
        | cons b f =>
          simp only [List.cons_append, List.cons.injEq] at ht
          rw [← ht.1]
          simpa using h13
  have ne2 : (c.after net 2).buf ≠ [] := fun e => by rw [e] at h5; simp at h5
  have ne3 : (c.after net 3).buf ≠ [] := fun e => by rw [e] at h5'; simp at h5'
  have e1 : (c.advance net).buf ++ (net (c.advance net).t).arrive = (c.after net 2).buf := by simp [Conn.advance, Conn.after, arrivals]
  have e2 : ((c.advance net).advance net).buf ++ (net ((c.advance net).advance net).t).arrive = (c.after net 3).buf := by
    simp [Conn.advance, Conn.after, arrivals]
  rw [readStream, setReadTimeout_ok (hf 0 (by omega))]
  simp only
  rw [hasMessages_ok (hf 1 (by omega)) (by rw [e1]; exact ne2)]
  simp only
  rw [peek_ok (hf 2 (by omega)) (by rw [e2]; exact ne3), e2]
  simp only
  rw [if_neg (fun x => hhead x.2)]
  have e3 : (((c.advance net).advance net).advance net) = c.after net 3 := by simp [Conn.advance, Conn.after, arrivals]
  rw [e3]
  obtain ⟨n, r, r1, r2⟩ := readFramed_waits hfr (delivers_after h 3) h5'
    (by
      intro i hi
      have := hf (3 + i) (by omega)
      simpa [Conn.after, Nat.add_assoc] using this)
    (by rw [after_after]; exact hl)
  refine ⟨3 + n, r, ?_, ?_, by omega⟩
  · rw [r1]; simp [Conn.after, Nat.add_assoc]
  · rw [arrivals_add, ← List.append_assoc]
    exact r2

/-! ### The stream -/

theorem firstMsgs_succ (ms : Nat → WireMsg) (j : Nat) : firstMsgs ms (j + 1) = firstMsgs ms j ++ [ms j] := by
  simp [firstMsgs, List.range_succ]

theorem streamed_succ (ms : Nat → WireMsg) (j : Nat) : streamed ms (j + 1) = streamed ms j ++ wire (ms j) := by
  simp [streamed, firstMsgs_succ]

theorem firstMsgs_prefix (ms : Nat → WireMsg) {i j : Nat} (h : i ≤ j) : firstMsgs ms i <+: firstMsgs ms j := by
  obtain ⟨d, rfl⟩ : ∃ d, j = i + d := ⟨j - i, by omega⟩
  rw [firstMsgs, firstMsgs, List.range_add, List.map_append]
  exact List.prefix_append _ _

theorem streamed_prefix (ms : Nat → WireMsg) {i j : Nat} (h : i ≤ j) : streamed ms i <+: streamed ms j := by
  obtain ⟨t, ht⟩ := firstMsgs_prefix ms h
  rw [streamed, streamed, ← ht, List.flatMap_append]
  exact List.prefix_append _ _

theorem streamed_lt (ms : Nat → WireMsg) {i j : Nat} (h : i < j) : (streamed ms i).length + (wire (ms i)).length ≤ (streamed ms j).length := by
  have := (streamed_prefix ms (show i + 1 ≤ j from h)).length_le
  rw [streamed_succ, List.length_append] at this
  exact this

theorem wire_length_ge (x : WireMsg) : 5 ≤ (wire x).length := by simp [wire, u32]

section
variable {net : Net} {c : Conn} {ms : Nat → WireMsg} {full : Nat → Nat} {part : Nat → Bytes}

/-- `k` calls from `c` on, `j` messages have been taken off the stream. -/
structure Reads (net : Net) (c : Conn) (ms : Nat → WireMsg) (k j : Nat) (d : Conn) : Prop where
  time : d.t = c.t + k
  bytes : streamed ms j ++ d.buf = c.buf ++ arrivals net c.t k

theorem reads_advance {k j : Nat} {d : Conn} (h : Reads net c ms k j d) : Reads net c ms (k + 1) j (d.advance net) where
  time := by simp [Conn.advance, h.time, Nat.add_assoc]
  bytes := by
    rw [arrivals_add, arrivals_one, ← List.append_assoc, ← h.bytes, Conn.advance, h.time, List.append_assoc]

theorem _root_.Spec.Segmented.part_lt (hs : Segmented net c ms full part) (k : Nat) : (part k).length < (wire (ms (full k))).length := by
  obtain ⟨h1, h2⟩ := hs.begun k
  rcases Nat.lt_or_ge (part k).length (wire (ms (full k))).length with h | h
  · exact h
  · exact absurd (h1.eq_of_length_le h) h2

/-- The received bytes begin with the first `j` messages exactly if `full` says so. -/
theorem _root_.Spec.Segmented.le_full (hs : Segmented net c ms full part) {k j : Nat} (h : (streamed ms j).length ≤ (c.buf ++ arrivals net c.t k).length) :
    j ≤ full k := by
  rcases Nat.lt_or_ge (full k) j with hlt | hge
  · exfalso
    have h1 := streamed_lt ms hlt
    have h2 := hs.part_lt k
    rw [hs.bytes k, List.length_append] at h
    omega
  · exact hge

theorem _root_.Spec.Segmented.mono (hs : Segmented net c ms full part) {i k : Nat} (h : i ≤ k) : full i ≤ full k := by
  refine hs.le_full ?_
  obtain ⟨d, rfl⟩ : ∃ d, k = i + d := ⟨k - i, by omega⟩
  rw [arrivals_add, ← List.append_assoc, hs.bytes i, List.length_append, List.length_append]
  omega

theorem Reads.le_full {k j : Nat} {d : Conn} (h : Reads net c ms k j d) (hs : Segmented net c ms full part) : j ≤ full k := by
  refine hs.le_full ?_
  rw [← h.bytes, List.length_append]
  omega

theorem Reads.after {k j : Nat} {d : Conn} (h : Reads net c ms k j d) (n : Nat) :
    streamed ms j ++ (d.after net n).buf = c.buf ++ arrivals net c.t (k + n) := by
  rw [Conn.after, arrivals_add, ← List.append_assoc, ← List.append_assoc, ← h.bytes, h.time]

/-- What is read is a message of the stream. -/
theorem delivers_message (hs : Segmented net c ms full part) {k j : Nat} {d : Conn} (h : Reads net c ms k j d) :
    Delivers net d (wire (ms j)) := by
  intro n
  have e := h.after n
  rw [hs.bytes] at e
  have hj : j ≤ full (k + n) := hs.le_full (by rw [← h.after n, List.length_append]; omega)
  rcases Nat.lt_or_eq_of_le hj with hlt | rfl
  · right
    obtain ⟨t, ht⟩ := streamed_prefix ms (show j + 1 ≤ full (k + n) from hlt)
    rw [← ht, streamed_succ, List.append_assoc, List.append_assoc] at e
    have := List.append_cancel_left e
    exact ⟨t ++ part (k + n), by rw [show d.buf ++ arrivals net d.t n = (d.after net n).buf from rfl, this]⟩
  · left
    have := List.append_cancel_left e
    rw [show d.buf ++ arrivals net d.t n = (d.after net n).buf from rfl, this]
    exact (hs.begun _).1

/-- A poll that finds the beginning of a message reads the message. -/
theorem poll_message (hs : Segmented net c ms full part) {k j : Nat} {d : Conn} (h : Reads net c ms k j d)
    (hx : (ms j).2.length + 1 < 0x13000000) (hne : (d.after net 2).buf ≠ []) :
    ∃ n d', readStream net d = (some ((ms j).2, (ms j).1, (ms j).2.length), d') ∧ Reads net c ms (k + n) (j + 1) d' ∧ 0 < n := by
  obtain ⟨h1, h2⟩ := wire_frame hx
  have hf : NoFailure net d.t 45 := fun i _ => hs.up _ (by rw [h.time]; omega)
  have e := h.after 2
  rw [hs.bytes] at e
  have hj : j ≤ full (k + 2) := hs.le_full (by rw [← h.after 2, List.length_append]; omega)
  have hsoon : 5 ≤ (d.after net 2).buf.length ∧ j < full (k + 44) := by
    rcases Nat.lt_or_eq_of_le hj with hlt | rfl
    · refine ⟨?_, Nat.lt_of_lt_of_le hlt (hs.mono (by omega))⟩
      have e1 := streamed_lt ms hlt
      have e2 := congrArg List.length e
      have e3 := wire_length_ge (ms j)
      simp only [List.length_append] at e2
      omega
    · have := List.append_cancel_left e
      rw [this] at hne ⊢
      refine ⟨(hs.header _).resolve_left hne, ?_⟩
      have := hs.prompt _ hne
      exact this
  have hl : (wire (ms j)).length ≤ (d.after net 44).buf.length := by
    have e1 := streamed_lt ms hsoon.2
    have e2 := congrArg List.length (h.after 44)
    rw [hs.bytes] at e2
    simp only [List.length_append] at e2
    omega
  obtain ⟨n, r, r1, r2, r3⟩ := readStream_waits h1 h2 (delivers_message hs h) hsoon.1 hf hl
  refine ⟨n, _, r1, ⟨by rw [h.time]; simp [Nat.add_assoc], ?_⟩, r3⟩
  rw [streamed_succ, List.append_assoc, ← r2, ← h.after n]
  rfl

/-- A poll that finds nothing. -/
theorem poll_nothing (hs : Segmented net c ms full part) {k j : Nat} {d : Conn} (h : Reads net c ms k j d)
    (he : (d.after net 2).buf = []) : readStream net d = (none, d.after net 2) ∧ Reads net c ms (k + 2) j (d.after net 2) := by
  refine ⟨?_, ⟨by simp [Conn.after, h.time, Nat.add_assoc], h.after 2⟩⟩
  have := readStream_nothing (net := net) (c := d) he (fun i _ => hs.up _ (by rw [h.time]; omega))
  rw [this]
  simp [Conn.after] at he ⊢
  exact he

/-! ### The download loop -/

/-- What is known at the start of an iteration: `k` calls after the start, `j` messages have been handled. -/
structure SInv (d : Downloadable) (cap : Nat) (net : Net) (c : Conn) (ms : Nat → WireMsg) (Good : Peer → Prop) (k j : Nat) (s : DState) : Prop where
  reads : Reads net c ms k j s.peer.conn
  buffer : s.buf.buffer = answersOf d (firstMsgs ms j)
  room : (answersOf d (firstMsgs ms j)).length < cap
  capacity : s.buf.capacity = cap
  choked : s.peer.choked = false
  good : Good s.peer
  idle : s.idle ≤ 10
  quiet : s.peer.conn.buf = [] → 2 * (s.idle - 1) ≤ k ∧ arrivals net (c.t + (k - 2 * (s.idle - 1))) (2 * (s.idle - 1)) = []

theorem answers_le (d : Downloadable) (ms : Nat → WireMsg) {i j : Nat} (h : i ≤ j) :
    (answersOf d (firstMsgs ms i)).length ≤ (answersOf d (firstMsgs ms j)).length := by
  obtain ⟨t, ht⟩ := firstMsgs_prefix ms h
  rw [← ht, answersOf_append, List.length_append]
  omega

/-- One iteration ends the download with the first `cap` answers, or keeps the invariant and has handled a message or let time pass. -/
theorem segment_step {m : Build} {d : Downloadable} {cap : Nat} {Good : Peer → Prop} {ok : WireMsg → Prop}
    (hs : Segmented net c ms full part) (hG : Goodness m d cap ok Good)
    (hok : ∀ j, ok (ms j) ∧ (ms j).1 ≠ 0 ∧ ∃ msg, Handled (ms j) msg)
    (hpause : ∀ k, cap ≤ (answersOf d (firstMsgs ms (full k))).length ∨ arrivals net (c.t + k) 20 ≠ [])
    {k j : Nat} {s : DState} (h : SInv d cap net c ms Good k j s) :
    (∃ p' j', execStep m net d s = .done (.ok ((answersOf d (firstMsgs ms j')).flatMap Message.contentData)) p' ∧
      (answersOf d (firstMsgs ms j')).length = cap) ∨
    (∃ s' k' j', execStep m net d s = .again s' ∧ SInv d cap net c ms Good k' j' s' ∧ k < k' ∧ j ≤ j' ∧ (j < full k → j < j')) := by
  have hfin : ∀ (s1 s' : DState) (k1 j1 : Nat), Reads net c ms k1 j1 s1.peer.conn → s1.buf.buffer = answersOf d (firstMsgs ms j1) →
      (answersOf d (firstMsgs ms j1)).length < cap → s1.buf.capacity = cap → s1.peer.choked = false → Good s1.peer → s1.idle + 1 ≤ 10 →
      (s1.peer.conn.buf = [] → 2 * s1.idle ≤ k1 ∧ arrivals net (c.t + (k1 - 2 * s1.idle)) (2 * s1.idle) = []) →
      s'.buf.buffer = s1.buf.buffer → s'.buf.capacity = s1.buf.capacity → s'.idle = s1.idle + 1 →
      (s'.peer = s1.peer ∨ ∃ x, s'.peer = { s1.peer with conn := s1.peer.conn.advance net, log := s1.peer.log ++ [.sent x] }) →
      ∃ k', SInv d cap net c ms Good k' j1 s' ∧ k1 ≤ k' := by
    intro s1 s' k1 j1 hr hbuf hroom hcap hck hgood hi hq e1 e2 e3 e4
    rcases e4 with e4 | ⟨x, e4⟩
    · refine ⟨k1, ⟨by rw [e4]; exact hr, by rw [e1]; exact hbuf, hroom, by rw [e2]; exact hcap, by rw [e4]; exact hck,
        by rw [e4]; exact hgood, by omega, ?_⟩, Nat.le_refl _⟩
      rw [e4, e3]
      exact hq
    · refine ⟨k1 + 1, ⟨by rw [e4]; exact reads_advance hr, by rw [e1]; exact hbuf, hroom, by rw [e2]; exact hcap, by rw [e4]; exact hck,
        by rw [e4]; exact hG.sent _ _ _ hgood, by omega, ?_⟩, by omega⟩
      rw [e4]
      intro hp
      simp only [Conn.advance, List.append_eq_nil_iff, hr.time] at hp
      obtain ⟨h1, h2⟩ := hq hp.1
      rw [e3, Nat.add_sub_cancel]
      refine ⟨by omega, ?_⟩
      have : arrivals net (c.t + (k1 - 2 * s1.idle)) (2 * s1.idle + 1) = [] := by
        rw [arrivals_add, h2, show c.t + (k1 - 2 * s1.idle) + 2 * s1.idle = c.t + k1 by omega]
        simp [arrivals, hp.2]
      rcases Nat.eq_zero_or_pos s1.idle with h0 | h0
      · rw [h0]; rfl
      · rw [Nat.add_comm (2 * s1.idle) 1, arrivals_add, List.append_eq_nil_iff] at this
        rw [show c.t + (k1 + 1 - 2 * s1.idle) = c.t + (k1 - 2 * s1.idle) + 1 by omega]
        exact this.2
  by_cases hne : (s.peer.conn.after net 2).buf = []
  · right
    obtain ⟨hr1, hr2⟩ := poll_nothing hs h.reads hne
    have hstep : execStep m net d s = execTail m net d { s with peer := { s.peer with conn := s.peer.conn.after net 2 } } := by
      unfold execStep Peer.readMessage
      rw [hr1]
    have hb0 : s.peer.conn.buf = [] ∧ arrivals net (c.t + k) 2 = [] := by
      simpa [Conn.after, h.reads.time] using hne
    obtain ⟨hq1, hq2⟩ := h.quiet hb0.1
    have hq3 : arrivals net (c.t + (k - 2 * (s.idle - 1))) (2 * (s.idle - 1) + 2) = [] := by
      rw [arrivals_add, hq2, show c.t + (k - 2 * (s.idle - 1)) + 2 * (s.idle - 1) = c.t + k by omega, hb0.2]; rfl
    -- everything that has arrived has been handled
    have hj : full k ≤ j := by
      have e := h.reads.bytes
      rw [hb0.1, List.append_nil, hs.bytes] at e
      rcases Nat.lt_or_ge j (full k) with hlt | hge
      · exfalso
        have e1 := streamed_lt ms hlt
        have e2 := congrArg List.length e
        have e3 := wire_length_ge (ms j)
        rw [List.length_append] at e2
        omega
      · exact hge
    have hi : s.idle + 1 ≤ 10 := by
      have hi10 := h.idle
      rcases Nat.lt_or_ge s.idle 10 with h1 | h1
      · omega
      · exfalso
        have h10 : s.idle = 10 := by omega
        rw [h10] at hq1 hq3
        rcases hpause (k - 18) with hp | hp
        · have h1 := answers_le d ms (Nat.le_trans (hs.mono (show k - 18 ≤ k by omega)) hj)
          have h2 := h.room
          omega
        · exact hp hq3
    generalize hs1 : ({ s with peer := { s.peer with conn := s.peer.conn.after net 2 } } : DState) = s1 at hstep
    have hbuf1 : s1.buf = s.buf := by rw [← hs1]
    have hidle1 : s1.idle = s.idle := by rw [← hs1]
    have hchk : s1.peer.choked = false := by rw [← hs1]; exact h.choked
    have hconn : s1.peer.conn = s.peer.conn.after net 2 := by rw [← hs1]
    have hgood1 : Good s1.peer := by rw [← hs1]; exact hG.conn _ _ h.good
    have hnfull : s1.buf.isFull = false := by
      rw [hbuf1]
      simp only [MessageBuffer.isFull, h.buffer, h.capacity, beq_eq_false_iff_ne]
      have := h.room; omega
    obtain ⟨s', e0, e1, e2, e3, e4⟩ := execTail_again (m := m) (net := net) (d := d) hnfull hchk (by omega)
      (by rw [hbuf1, h.buffer]; exact hG.req _ _ hgood1 h.room)
    obtain ⟨k', hT, hk'⟩ := hfin s1 s' (k + 2) j (by rw [hconn]; exact hr2) (by rw [hbuf1]; exact h.buffer) h.room
      (by rw [hbuf1]; exact h.capacity) hchk hgood1 (by omega)
      (by
        intro _
        rw [hidle1]
        rcases Nat.eq_zero_or_pos s.idle with h0 | h0
        · rw [h0]; simp [arrivals]
        · refine ⟨by omega, ?_⟩
          have e : 2 * (s.idle - 1) + 2 = 2 * s.idle := by omega
          rw [e] at hq3
          rw [show k + 2 - 2 * s.idle = k - 2 * (s.idle - 1) by omega]
          exact hq3) e1 e2 e3 e4
    exact ⟨s', k', j, by rw [hstep, e0], hT, by omega, Nat.le_refl _, fun hlt => by omega⟩
  · obtain ⟨hxok, hx0, msg, hx⟩ := hok j
    obtain ⟨n, d', hr1, hr2, hn⟩ := poll_message hs h.reads hx.1 hne
    have hstep : execStep m net d s = execTail m net d
        ⟨({ s.peer with conn := d' } : Peer).applyMessage msg, s.buf.pushMessage d msg, 0⟩ := by
      unfold execStep Peer.readMessage
      rw [hr1]
      simp only [hx.2]
    generalize hs1 : (DState.mk (({ s.peer with conn := d' } : Peer).applyMessage msg) (s.buf.pushMessage d msg) 0) = s1 at hstep
    have hid : msg.id = (ms j).1 := (newRaw_id hx.2).1
    have hans : answersOf d (firstMsgs ms (j + 1)) = answersOf d (firstMsgs ms j) ++ (if d.messageFilter msg then [msg] else []) := by
      rw [firstMsgs_succ, answersOf_append, answersOf_single d (toMsg_handled hx)]
    have hnf : s.buf.isFull = false := by
      simp only [MessageBuffer.isFull, h.buffer, h.capacity, beq_eq_false_iff_ne]
      have := h.room; omega
    have hpush : s1.buf.buffer = answersOf d (firstMsgs ms (j + 1)) ∧ s1.buf.capacity = cap := by
      rw [← hs1]
      simp only [MessageBuffer.pushMessage, hnf, Bool.not_false, Bool.and_true, hans]
      by_cases hf : d.messageFilter msg = true
      · simp [hf, h.buffer, h.capacity]
      · simp [hf, h.buffer, h.capacity]
    have hchk : s1.peer.choked = false := by
      rw [← hs1]
      simp only [Peer.applyMessage]
      rw [applyState_choked, hid, if_neg hx0]
      simp [h.choked]
    have hconn : s1.peer.conn = d' := by
      rw [← hs1]
      simp only [Peer.applyMessage]
      rw [(applyState_same _ _).2.1]
    have hgood1 : Good s1.peer := by
      rw [← hs1]; exact hG.got _ _ _ hxok hx (hG.conn _ _ h.good)
    have hle : (answersOf d (firstMsgs ms (j + 1))).length ≤ cap := by
      rw [hans, List.length_append]
      have := h.room
      split <;> simp <;> omega
    have hidle1 : s1.idle = 0 := by rw [← hs1]
    by_cases hfull : (answersOf d (firstMsgs ms (j + 1))).length = cap
    · left
      have : s1.buf.isFull = true := by
        simp only [MessageBuffer.isFull, hpush.1, hpush.2, beq_iff_eq]; exact hfull
      refine ⟨s1.peer, j + 1, ?_, hfull⟩
      rw [hstep, execTail, if_pos this, MessageBuffer.assembleContent, hpush.1]
    · right
      have hlt : (answersOf d (firstMsgs ms (j + 1))).length < cap := by omega
      have hnfull : s1.buf.isFull = false := by
        simp only [MessageBuffer.isFull, hpush.1, hpush.2, beq_eq_false_iff_ne]; omega
      obtain ⟨s', e0, e1, e2, e3, e4⟩ := execTail_again (m := m) (net := net) (d := d) hnfull hchk (by omega)
        (by rw [hpush.1]; exact hG.req _ _ hgood1 hlt)
      obtain ⟨k', hT, hk'⟩ := hfin s1 s' (k + n) (j + 1) (by rw [hconn]; exact hr2) hpush.1 hlt
        hpush.2 hchk hgood1 (by omega) (by intro _; rw [hidle1]; simp [arrivals]) e1 e2 e3 e4
      exact ⟨s', k', j + 1, by rw [hstep, e0], hT, by omega, by omega, fun _ => by omega⟩

/-- The download ends with the first `cap` answers. -/
theorem segment_run {m : Build} {d : Downloadable} {cap : Nat} {Good : Peer → Prop} {ok : WireMsg → Prop}
    (hs : Segmented net c ms full part) (hG : Goodness m d cap ok Good)
    (hok : ∀ j, ok (ms j) ∧ (ms j).1 ≠ 0 ∧ ∃ msg, Handled (ms j) msg)
    (hpause : ∀ k, cap ≤ (answersOf d (firstMsgs ms (full k))).length ∨ arrivals net (c.t + k) 20 ≠ [])
    {T : Nat} (hT : cap ≤ (answersOf d (firstMsgs ms (full T))).length) (μ : Nat) :
    ∀ {k j : Nat} {s : DState}, SInv d cap net c ms Good k j s → (T - k) + (full T - j) ≤ μ → ∀ f, μ < f →
      ∃ p', execRun m net d f s = .done (.ok (((answersOf d (firstMsgs ms (full T))).take cap).flatMap Message.contentData)) p' := by
  have hpre : ∀ j', (answersOf d (firstMsgs ms j')).length = cap →
      answersOf d (firstMsgs ms j') = (answersOf d (firstMsgs ms (full T))).take cap := by
    intro j' hl
    have h0 : ∀ i j, i ≤ j → answersOf d (firstMsgs ms i) <+: answersOf d (firstMsgs ms j) := by
      intro i j h
      obtain ⟨t, ht⟩ := firstMsgs_prefix ms h
      rw [← ht, answersOf_append]
      exact List.prefix_append _ _
    rcases Nat.le_total j' (full T) with h | h
    · have := h0 _ _ h
      rw [List.prefix_iff_eq_take, hl] at this
      exact this
    · have h1 := h0 _ _ h
      rw [h1.eq_of_length_le (by omega), List.take_of_length_le (by omega)]
  have hlt : ∀ {k j : Nat} {s : DState}, SInv d cap net c ms Good k j s → j < full T := by
    intro k j s h
    rcases Nat.lt_or_ge j (full T) with h1 | h1
    · exact h1
    · have := answers_le d ms h1
      have := h.room
      omega
  induction μ with
  | zero =>
    intro k j s h hle f hf
    have := hlt h
    omega
  | succ μ ih =>
    intro k j s h hle f hf
    obtain ⟨f', rfl⟩ : ∃ f', f = f' + 1 := ⟨f - 1, by omega⟩
    have hj := hlt h
    rw [execRun]
    rcases segment_step hs hG hok hpause h with ⟨p', j', h1, h2⟩ | ⟨s', k', j', h1, h2, h3, h4, h5⟩
    · rw [h1, hpre j' h2]
      exact ⟨p', rfl⟩
    · rw [h1]
      refine ih h2 ?_ f' (by omega)
      rcases Nat.lt_or_ge k T with hkT | hkT
      · omega
      · have := h5 (Nat.lt_of_lt_of_le hj (hs.mono hkT))
        omega

/-- What comes after the first messages. -/
theorem _root_.Spec.Segmented.shift (hs : Segmented net c ms full part) {k j : Nat} {d : Conn} (h : Reads net c ms k j d) :
    Segmented net d (fun i => ms (j + i)) (fun n => full (k + n) - j) (fun n => part (k + n)) := by
  have hj : ∀ n, j ≤ full (k + n) := fun n => Nat.le_trans (h.le_full hs) (hs.mono (by omega))
  have hst : ∀ i, streamed ms (j + i) = streamed ms j ++ streamed (fun i => ms (j + i)) i := by
    intro i
    simp only [streamed, firstMsgs, List.range_add, List.map_append, List.map_map, List.flatMap_append]
    rfl
  refine ⟨fun t ht => hs.up t (by rw [h.time] at ht; omega), fun n => ?_, fun n => ?_, fun n => hs.header _, fun n hn => ?_⟩
  · have e := h.after n
    rw [hs.bytes, show full (k + n) = j + (full (k + n) - j) by have := hj n; omega, hst, List.append_assoc] at e
    exact List.append_cancel_left e
  · have := hs.begun (k + n)
    rw [show j + (full (k + n) - j) = full (k + n) by have := hj n; omega]
    exact this
  · have := hs.prompt (k + n) hn
    have := hj n
    rw [← Nat.add_assoc]
    omega

end

/-! ### Finite streams -/

/-- The stream of the messages of a list (followed by unchokes). -/
def ofList (L : List WireMsg) : Nat → WireMsg := fun i => L.getD i (1, [])

theorem firstMsgs_ofList (L : List WireMsg) (n : Nat) (h : n ≤ L.length) : firstMsgs (ofList L) n = L.take n := by
  apply List.ext_getElem
  · simp [firstMsgs, h]
  · intro i h1 h2
    simp only [firstMsgs, List.length_map, List.length_range] at h1
    simp only [firstMsgs, List.getElem_map, List.getElem_range, ofList, List.getElem_take]
    rw [List.getD_eq_getElem?_getD, List.getElem?_eq_getElem (by omega), Option.getD_some]

theorem firstMsgs_all (L : List WireMsg) : firstMsgs (ofList L) L.length = L := by
  rw [firstMsgs_ofList L _ (Nat.le_refl _), List.take_length]

theorem ofList_mem {L : List WireMsg} {P : WireMsg → Prop} (h : ∀ x ∈ L, P x) (h1 : P (1, [])) (i : Nat) : P (ofList L i) := by
  unfold ofList
  rw [List.getD_eq_getElem?_getD]
  cases hi : L[i]? with
  | none => exact h1
  | some x => exact h x (List.mem_of_getElem? hi)

theorem arrivals_none {net : Net} {t : Nat} (h : ∀ i, t ≤ i → (net i).arrive = []) (k : Nat) : arrivals net t k = [] := by
  induction k generalizing t with
  | zero => rfl
  | succ k ih => rw [arrivals, h t (Nat.le_refl _), ih (fun i hi => h i (by omega))]; rfl

/-- Messages all of which are there. -/
theorem segmented_now {net : Net} {c : Conn} (L : List WireMsg) (hup : ∀ t, c.t ≤ t → (net t).kind ≠ .fail) (hb : c.buf = L.flatMap wire)
    (hnone : ∀ t, c.t ≤ t → (net t).arrive = []) : Segmented net c (ofList L) (fun _ => L.length) (fun _ => []) where
  up := hup
  bytes k := by rw [arrivals_none hnone, streamed, firstMsgs_all, hb]
  begun k := ⟨List.nil_prefix, (wire_ne_nil _).symm⟩
  header k := .inl rfl
  prompt k h := absurd rfl h

/-- Messages that are there after one call but for the last byte, which arrives at call 3. -/
def lateNet (L : List WireMsg) (x : WireMsg) : Net := fun t =>
  if t = 0 then ⟨L.flatMap wire ++ (wire x).dropLast, .up⟩ else if t = 3 then ⟨(wire x).drop ((wire x).length - 1), .up⟩ else ⟨[], .up⟩

theorem arrivals_late (L : List WireMsg) (x : WireMsg) (k : Nat) : arrivals (lateNet L x) 0 k =
    if k = 0 then [] else if k < 4 then L.flatMap wire ++ (wire x).dropLast else (L ++ [x]).flatMap wire := by
  have h4 : arrivals (lateNet L x) 0 4 = (L ++ [x]).flatMap wire := by
    simp only [arrivals, lateNet]
    simp only [if_true, Nat.zero_add, Nat.one_ne_zero, if_false, Nat.reduceAdd, Nat.reduceEqDiff, List.nil_append, List.append_nil,
      List.flatMap_append, List.flatMap_cons, List.flatMap_nil, List.append_assoc]
    rw [List.dropLast_eq_take, List.take_append_drop]
  match k with
  | 0 => rfl
  | 1 => simp [arrivals, lateNet]
  | 2 => simp [arrivals, lateNet]
  | 3 => simp [arrivals, lateNet]
  | k + 4 =>
    rw [Nat.add_comm, arrivals_add, h4, arrivals_none, List.append_nil, if_neg (by omega), if_neg (by omega)]
    intro i hi
    rw [lateNet, if_neg (by omega), if_neg (by omega)]

theorem segmented_late (L : List WireMsg) (x : WireMsg) (hx : x.2 ≠ []) : Segmented (lateNet L x) ⟨[], 0⟩ (ofList (L ++ [x]))
    (fun k => if k = 0 then 0 else if k < 4 then L.length else L.length + 1)
    (fun k => if k ≠ 0 ∧ k < 4 then (wire x).dropLast else []) := by
  have hl : L.length + 1 = (L ++ [x]).length := by simp
  have hlast : ofList (L ++ [x]) L.length = x := by simp [ofList]
  have hd : (wire x).dropLast ≠ wire x := by
    intro e
    have := congrArg List.length e
    have := wire_length_ge x
    rw [List.length_dropLast] at *
    omega
  have h5 : 5 ≤ (wire x).dropLast.length := by
    have : 0 < x.2.length := List.length_pos_iff.mpr hx
    simp [wire, u32]
    omega
  refine ⟨fun t _ => ?_, fun k => ?_, fun k => ?_, fun k => ?_, fun k h => ?_⟩
  · unfold lateNet
    split
    · simp
    · split <;> simp
  · simp only [List.nil_append, arrivals_late]
    by_cases h0 : k = 0
    · simp [h0, streamed, firstMsgs]
    · by_cases h4 : k < 4
      · simp only [h0, h4, if_false, if_true, ne_eq, not_false_eq_true, and_self]
        rw [streamed, firstMsgs_ofList _ _ (by simp), List.take_left' rfl]
      · simp only [h0, h4, if_false, and_false]
        rw [hl, streamed, firstMsgs_all, List.append_nil]
  · by_cases h : k ≠ 0 ∧ k < 4
    · simp only [h, if_true, ne_eq, not_false_eq_true, and_self, if_false, hlast]
      exact ⟨List.dropLast_prefix _, hd⟩
    · rw [if_neg h]
      exact ⟨List.nil_prefix, (wire_ne_nil _).symm⟩
  · by_cases h : k ≠ 0 ∧ k < 4
    · rw [if_pos h]
      exact .inr h5
    · rw [if_neg h]
      exact .inl rfl
  · by_cases hk : k ≠ 0 ∧ k < 4
    · simp only [hk.1, hk.2, if_false, if_true]
      rw [if_neg (by omega), if_neg (by omega)]
      omega
    · rw [if_neg hk] at h
      exact absurd rfl h

end RustBit
