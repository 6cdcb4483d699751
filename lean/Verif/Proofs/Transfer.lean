/- The iterations of the download loop; peers that send finitely many bytes. -/
import Verif.Proofs.Download

namespace RustBit
open Spec

theorem readStream_nothing {net : Net} {c : Conn} (h : c.buf ++ arrivals net c.t 2 = [])
    (hf : NoFailure net c.t 2) : readStream net c = (none, ⟨[], c.t + 2⟩) := by
  have h2 : c.buf = [] ∧ (net c.t).arrive = [] ∧ (net (c.t + 1)).arrive = [] := by
    simpa [arrivals] using h
  rw [readStream, setReadTimeout_ok (hf 0 (by omega))]
  simp only []
  have hb : (c.advance net).advance net = ⟨[], c.t + 2⟩ := by
    simp [Conn.advance, h2]
  have hk : (net (c.advance net).t).kind ≠ .fail := hf 1 (by omega)
  have : hasMessages net (c.advance net) = (false, ⟨[], c.t + 2⟩) := by
    unfold hasMessages Conn.peek
    rw [hb]
    cases h : (net (c.advance net).t).kind with
    | up => simp
    | eof => simp
    | fail => exact absurd h hk
  rw [this]

/-! ### Messages -/

theorem u32_isU32 (n : Nat) (h : n < 2 ^ 32) : IsU32 n (u32 n) := by
  refine ⟨rfl, ?_⟩
  simp only [u32, beValue, List.length_cons, List.length_nil, UInt8.toNat_ofNat']
  omega

theorem u32_eq (n : Nat) (h : n < 2 ^ 32) : u32 n = beU32 n :=
  isU32_unique (u32_isU32 n h) (isU32_beU32 n h)

/-- A message that the code can handle, of fewer than 0x13000000 bytes. -/
def Handled (x : WireMsg) (m : Message) : Prop :=
  x.2.length + 1 < 0x13000000 ∧ Message.newRaw x.2 x.2.length x.1 = .ok m

theorem wire_frame {x : WireMsg} (h : x.2.length + 1 < 0x13000000) :
    IsFrame x.1 x.2 (wire x) ∧ (wire x).head? ≠ some 0x13 := by
  refine ⟨⟨u32 (x.2.length + 1), u32_isU32 _ (by omega), rfl⟩, ?_⟩
  simp only [wire, u32, List.cons_append, List.head?_cons, ne_eq, Option.some.injEq]
  intro e
  have := congrArg UInt8.toNat e
  simp only [UInt8.toNat_ofNat'] at this
  have h13 : (0x13 : UInt8).toNat = 19 := rfl
  omega

theorem wire_ne_nil (x : WireMsg) : wire x ≠ [] := by simp [wire, u32]

/-- What `newRaw` makes of a message. -/
def toMsg (x : WireMsg) : Option Message :=
  match Message.newRaw x.2 x.2.length x.1 with
  | .ok m => some m
  | _ => none

/-- The answers among the messages. -/
def answersOf (d : Downloadable) (l : List WireMsg) : List Message :=
  (l.filterMap toMsg).filter d.messageFilter

theorem answersOf_append (d : Downloadable) (a b : List WireMsg) :
    answersOf d (a ++ b) = answersOf d a ++ answersOf d b := by simp [answersOf]

theorem answersOf_single (d : Downloadable) {x : WireMsg} {m : Message} (h : toMsg x = some m) :
    answersOf d [x] = if d.messageFilter m then [m] else [] := by
  simp only [answersOf, List.filterMap_cons, h, List.filterMap_nil, List.filter_cons, List.filter_nil]

/-- The end of an iteration in which nothing goes wrong. -/
theorem execTail_again {m : Build} {net : Net} {d : Downloadable} {s : DState}
    (hfull : s.buf.isFull = false) (hck : s.peer.choked = false) (hidle : s.idle + 1 ≤ 10)
    (hreq : ∃ msg, (d.request m s.peer s.buf.buffer.length : Res DownloadableError Message) = .ok msg) :
    ∃ s', execTail m net d s = .again s' ∧ s'.buf.buffer = s.buf.buffer ∧ s'.buf.capacity = s.buf.capacity ∧
      s'.idle = s.idle + 1 ∧
      (s'.peer = s.peer ∨ ∃ x, s'.peer = { s.peer with conn := s.peer.conn.advance net, log := s.peer.log ++ [.sent x] }) := by
  obtain ⟨msg, hmsg⟩ := hreq
  unfold execTail MessageBuffer.requestNextMessage
  rw [if_neg (by simp [hfull]), if_neg (by simp [hck])]
  by_cases hl : (s.buf.isLenAsExpected || s.buf.isFull) = true
  · simp only [hl, if_true]
    rw [if_neg (by omega)]
    exact ⟨_, rfl, rfl, rfl, rfl, .inl rfl⟩
  · simp only [hl, hmsg]
    have hn : ¬ s.idle + 1 > 10 := by omega
    simp only [hn]
    exact ⟨_, rfl, rfl, rfl, rfl, .inr ⟨_, rfl⟩⟩

/-- `Good` is an invariant of the peer, and guarantees that requests can be made. -/
structure Goodness (m : Build) (d : Downloadable) (cap : Nat) (ok : WireMsg → Prop) (Good : Peer → Prop) : Prop where
  conn : ∀ p c, Good p → Good { p with conn := c }
  sent : ∀ p c l, Good p → Good { p with conn := c, log := l }
  got : ∀ p x msg, ok x → Handled x msg → Good p → Good (p.applyMessage msg)
  req : ∀ p i, Good p → i < cap → ∃ msg, (d.request m p i : Res DownloadableError Message) = .ok msg

theorem toMsg_handled {x : WireMsg} {m : Message} (h : Handled x m) : toMsg x = some m := by
  simp [toMsg, h.2]

/-! ### Peers that send finitely many bytes -/

/-- At most `B` bytes are in the receive buffer or still to come. -/
def Bounded (net : Net) (c : Conn) (B : Nat) : Prop :=
  ∀ k, c.buf.length + (arrivals net c.t k).length ≤ B

/-- No bytes were added from nowhere. -/
def Shrinks (net : Net) (c c' : Conn) : Prop := ∀ B, Bounded net c B → Bounded net c' B

/-- At least one byte was removed. -/
def Consumes (net : Net) (c c' : Conn) : Prop := ∀ B, Bounded net c B → ∃ B', B = B' + 1 ∧ Bounded net c' B'

theorem shrinks_after (net : Net) (c : Conn) (n : Nat) : Shrinks net c (c.after net n) := by
  intro B h k
  have := h (n + k)
  rw [arrivals_add, List.length_append] at this
  simp only [Conn.after, List.length_append]
  omega

theorem Shrinks.trans {net : Net} {a b c : Conn} (h1 : Shrinks net a b) (h2 : Shrinks net b c) : Shrinks net a c :=
  fun B h => h2 B (h1 B h)

theorem Consumes.after {net : Net} {a b c : Conn} (h1 : Shrinks net a b) (h2 : Consumes net b c) : Consumes net a c :=
  fun B h => h2 B (h1 B h)

theorem Consumes.then {net : Net} {a b c : Conn} (h1 : Consumes net a b) (h2 : Shrinks net b c) : Consumes net a c := by
  intro B h
  obtain ⟨B', e, h'⟩ := h1 B h
  exact ⟨B', e, h2 B' h'⟩

theorem shrinks_drop (net : Net) (c : Conn) (n : Nat) : Shrinks net c ⟨c.buf.drop n, c.t⟩ := by
  intro B h k
  have := h k
  simp only [List.length_drop]
  omega

theorem consumes_drop (net : Net) (c : Conn) (n : Nat) (hn : 0 < n) (hc : c.buf ≠ []) :
    Consumes net c ⟨c.buf.drop n, c.t⟩ := by
  intro B h
  have hl : 0 < c.buf.length := List.length_pos_iff.mpr hc
  have h0 := h 0
  simp only [arrivals, List.length_nil] at h0
  refine ⟨B - 1, by omega, fun k => ?_⟩
  have := h k
  simp only [List.length_drop]
  omega

theorem shrinks_peek (net : Net) (c : Conn) (n : Nat) : (c.peek net n).2 = c.after net 1 := by
  rcases peek_cases net c n with h | h <;> rw [h]

theorem shrinks_read (net : Net) (c : Conn) (n : Nat) : Shrinks net c (c.read net n).2 := by
  rcases read_cases net c n with h | h <;> rw [h]
  · exact shrinks_after net c 1
  · exact (shrinks_after net c 1).trans (shrinks_drop net (c.after net 1) n)

theorem consumes_read {net : Net} {c : Conn} {n : Nat} (hn : 0 < n) (hc : c.buf ≠ []) (bs : Bytes) (c' : Conn)
    (h : c.read net n = (some bs, c')) : Consumes net c c' := by
  rcases read_cases net c n with h' | h' <;> rw [h'] at h
  · simp at h
  · simp only [Prod.mk.injEq] at h
    rw [← h.2]
    refine Consumes.after (shrinks_after net c 1) (consumes_drop net (c.after net 1) n hn ?_)
    simp [Conn.after, hc]

theorem shrinks_peekAndRead (net : Net) (c : Conn) (n : Nat) : Shrinks net c (peekAndRead net c n).2 := by
  unfold peekAndRead
  have hp := shrinks_peek net c n
  generalize c.peek net n = r at hp
  obtain ⟨r1, c1⟩ := r
  simp only at hp
  subst hp
  simp only []
  split
  · have hr := shrinks_read net (c.after net 1) n
    generalize (c.after net 1).read net n = q at hr
    obtain ⟨q1, c2⟩ := q
    simp only []
    split <;> exact (shrinks_after net c 1).trans hr
  · exact shrinks_after net c 1

theorem shrinks_bodyLoop (net : Net) (k : Nat) : ∀ (c : Conn) (n : Nat), Shrinks net c (bodyLoop net k c n).2 := by
  induction k with
  | zero => intro c n B h; exact h
  | succ k ih =>
    intro c n
    rw [bodyLoop]
    have hp := shrinks_peekAndRead net c n
    generalize peekAndRead net c n = r at hp
    obtain ⟨r1, c1⟩ := r
    cases r1 with
    | none => exact hp.trans (ih c1 n)
    | some b => exact hp

theorem readFramed_consumes {net : Net} {c : Conn} (hc : c.buf ≠ []) :
    Shrinks net c (readFramed net c).2 ∧ ∀ x, (readFramed net c).1 = some x → Consumes net c (readFramed net c).2 := by
  unfold readFramed
  have h4 := shrinks_read net c 4
  have h4c := consumes_read (net := net) (c := c) (n := 4) (by omega) hc
  generalize c.read net 4 = r at h4 h4c
  obtain ⟨r1, c1⟩ := r
  cases r1 with
  | none => exact ⟨h4, by simp⟩
  | some b4 =>
    have h4c := h4c b4 c1 rfl
    simp only []
    have h1 := shrinks_read net c1 1
    generalize c1.read net 1 = q at h1
    obtain ⟨q1, c2⟩ := q
    cases q1 with
    | none => exact ⟨h4.trans h1, by simp⟩
    | some b1 =>
      simp only []
      split
      · exact ⟨h4.trans h1, fun _ _ => h4c.then h1⟩
      · have hb := shrinks_bodyLoop net 39 c2 (ofBe (padTo 4 b4) - 1)
        generalize bodyLoop net 39 c2 (ofBe (padTo 4 b4) - 1) = z at hb
        obtain ⟨z1, c3⟩ := z
        cases z1 with
        | none => exact ⟨(h4.trans h1).trans hb, by simp⟩
        | some body => exact ⟨(h4.trans h1).trans hb, fun _ _ => (h4c.then h1).then hb⟩

/-- A message that is read has taken at least one byte off the stream. -/
theorem readStream_consumes (net : Net) (c : Conn) :
    Shrinks net c (readStream net c).2 ∧ ∀ x, (readStream net c).1 = some x → Consumes net c (readStream net c).2 := by
  unfold readStream Conn.setReadTimeout
  rw [advance_eq_after]
  cases hk : decide ((net c.t).kind ≠ .fail) with
  | false => exact ⟨shrinks_after net c 1, by simp⟩
  | true =>
    simp only []
    unfold hasMessages
    rcases peek_cases net (c.after net 1) 1 with hp | hp
    · rw [hp, after_after]; exact ⟨shrinks_after net c 2, by simp⟩
    · rw [hp, after_after]
      simp only []
      cases hz : decide ((List.take 1 (c.after net (1 + 1)).buf).length ≠ 0) with
      | false => exact ⟨shrinks_after net c 2, by simp⟩
      | true =>
        simp only []
        have hne : (c.after net 2).buf ≠ [] := by
          intro e
          simp only [e, decide_eq_true_eq] at hz
          simp at hz
        have hne3 : (c.after net 3).buf ≠ [] := by
          have : (c.after net 3).buf = (c.after net 2).buf ++ arrivals net (c.t + 2) 1 := by
            simp [Conn.after, arrivals]
          rw [this]; simp [hne]
        have hfr := readFramed_consumes (net := net) hne3
        have fin : Shrinks net c (readFramed net (c.after net 3)).2 ∧ ∀ x,
            (readFramed net (c.after net 3)).1 = some x → Consumes net c (readFramed net (c.after net 3)).2 :=
          ⟨(shrinks_after net c 3).trans hfr.1, fun x hx => Consumes.after (shrinks_after net c 3) (hfr.2 x hx)⟩
        rcases peek_cases net (c.after net 2) 68 with hq | hq
        · rw [hq, after_after]; exact fin
        · rw [hq, after_after]
          simp only []
          split
          · have hs := shrinks_read net (c.after net 3) 68
            have hcs := consumes_read (net := net) (c := c.after net 3) (n := 68) (by omega) hne3
            generalize hz : (c.after net 3).read net 68 = z at hs hcs
            obtain ⟨z1, c3⟩ := z
            cases z1 with
            | none => exact ⟨(shrinks_after net c 3).trans hs, by simp⟩
            | some bs =>
              exact ⟨(shrinks_after net c 3).trans hs, fun _ _ => Consumes.after (shrinks_after net c 3) (hcs _ _ rfl)⟩
          · exact fin

theorem request_not_hang (m : Build) (d : Downloadable) (p : Peer) (i : Nat) (hi : i < 2 ^ 64) :
    (d.request m p i : Res DownloadableError Message) ≠ .hang := by
  cases d with
  | info =>
    simp only [Downloadable.request]
    cases mapGet p.extensions b!"ut_metadata" with
    | none => simp
    | some e => simp only []; rw [newMetadata_eq e i hi]; simp
  | block pl pi tl =>
    have ha : ∀ a b, (uadd m a b : Res DownloadableError Nat) ≠ .hang := by
      intro a b; unfold uadd; split
      · simp
      · cases m <;> simp
    have hs : ∀ a b, (usub m a b : Res DownloadableError Nat) ≠ .hang := by
      intro a b; unfold usub; split
      · simp
      · cases m <;> simp
    have hm : ∀ a b, (umul m a b : Res DownloadableError Nat) ≠ .hang := by
      intro a b; unfold umul; split
      · simp
      · cases m <;> simp
    have hb : ∀ {α β : Type} (x : Res DownloadableError α) (k : α → Res DownloadableError β), x ≠ .hang →
        (∀ a, k a ≠ .hang) → (x >>= k) ≠ .hang := by
      intro α β x k hx hk
      cases x with
      | ok a => exact hk a
      | err e => simp
      | panic => simp
      | hang => exact absurd rfl hx
    simp only [Downloadable.request, blockRequest, getBlockSize]
    refine hb _ _ (hm _ _) (fun off => hb _ _ (hm _ _) (fun po => hb _ _ ?_ (fun len => by simp)))
    exact hb _ _ (ha _ _) (fun o => hb _ _ (hs _ _) (fun r => by simp))

theorem execTail_cases (m : Build) (net : Net) (d : Downloadable) (s : DState)
    (hcap : s.buf.buffer.length < 2 ^ 64 ∨ s.buf.isFull = true) :
    (∃ r p, execTail m net d s = .done r p ∧ r ≠ .hang) ∨
    (∃ s', execTail m net d s = .again s' ∧ s'.idle = s.idle + 1 ∧ s'.idle ≤ 10 ∧
      s'.buf.buffer = s.buf.buffer ∧ s'.buf.capacity = s.buf.capacity ∧
      (s'.peer.conn = s.peer.conn ∨ s'.peer.conn = s.peer.conn.after net 1)) := by
  unfold execTail
  by_cases hfull : s.buf.isFull = true
  · rw [if_pos hfull]; exact .inl ⟨_, _, rfl, by simp⟩
  · have hlen := hcap.resolve_right hfull
    rw [if_neg hfull]
    split
    · exact .inl ⟨_, _, rfl, by simp⟩
    · unfold MessageBuffer.requestNextMessage
      by_cases he : (s.buf.isLenAsExpected || s.buf.isFull) = true
      · simp only [he, if_true]
        split
        · exact .inl ⟨_, _, rfl, by simp⟩
        · exact .inr ⟨_, rfl, rfl, by simp only []; omega, rfl, rfl, .inl rfl⟩
      · simp only [he]
        have hn := request_not_hang m d s.peer s.buf.buffer.length hlen
        cases hr : (d.request m s.peer s.buf.buffer.length : Res DownloadableError Message) with
        | ok msg =>
          simp only [Bool.false_eq_true, if_false]
          split
          · exact .inl ⟨_, _, rfl, by simp⟩
          · refine .inr ⟨_, rfl, rfl, by simp only []; omega, rfl, rfl, .inr ?_⟩
            simp [Peer.sendMessage, Peer.write, Conn.writeAll, advance_eq_after]
        | err e => exact .inl ⟨_, _, rfl, by simp⟩
        | panic => exact .inl ⟨_, _, rfl, by simp⟩
        | hang => exact absurd hr hn

theorem applyMessage_conn (p : Peer) (msg : Message) : (p.applyMessage msg).conn = p.conn := by
  simp only [Peer.applyMessage, Peer.applyState, Peer.applyContent]
  repeat' split
  all_goals rfl

theorem pushMessage_bound (b : MessageBuffer) (d : Downloadable) (msg : Message) (h : b.buffer.length ≤ b.capacity) :
    (b.pushMessage d msg).buffer.length ≤ (b.pushMessage d msg).capacity ∧
    (b.pushMessage d msg).capacity = b.capacity := by
  unfold MessageBuffer.pushMessage
  split
  · rename_i hf
    simp only [MessageBuffer.isFull, Bool.and_eq_true, Bool.not_eq_true', beq_eq_false_iff_ne] at hf
    refine ⟨?_, rfl⟩
    simp only [List.length_append, List.length_cons, List.length_nil]
    omega
  · exact ⟨h, rfl⟩

theorem loop_ends {m : Build} {net : Net} {d : Downloadable} (f : Nat) :
    ∀ {B : Nat} {s : DState}, Bounded net s.peer.conn B → s.idle ≤ 10 → 11 * B + (10 - s.idle) < f →
      s.buf.buffer.length ≤ s.buf.capacity → s.buf.capacity ≤ 2 ^ 64 →
    ∃ r p', execRun m net d f s = .done r p' ∧
      (r = .hang → ∃ body len id, Message.newRaw body len id = .hang) := by
  induction f with
  | zero => intro B s _ _ h; omega
  | succ f ih =>
    intro B s hB hi hf hb hc
    have tail : ∀ (B' : Nat) (s' : DState), Bounded net s'.peer.conn B' → 11 * B' + (9 - s'.idle) < f ∨ s'.idle = 10 →
        s'.buf.buffer.length ≤ s'.buf.capacity → s'.buf.capacity ≤ 2 ^ 64 →
        ∃ r p', (match execTail m net d s' with
          | .again s'' => execRun m net d f s''
          | .done r p => .done r p) = Flow.done r p' ∧
          (r = .hang → ∃ body len id, Message.newRaw body len id = .hang) := by
      intro B' s' hB' hf' hb' hc'
      have hfull : s'.buf.buffer.length < 2 ^ 64 ∨ s'.buf.isFull = true := by
        simp only [MessageBuffer.isFull, beq_iff_eq]; omega
      rcases execTail_cases m net d s' hfull with ⟨r, p, e, hr⟩ | ⟨s'', e, h1, h2, h3, h4, h5⟩
      · rw [e]; exact ⟨r, p, rfl, fun h => absurd h hr⟩
      · rw [e]
        refine ih (B := B') ?_ h2 ?_ (by rw [h3, h4]; exact hb') (by rw [h4]; exact hc')
        · rcases h5 with h5 | h5 <;> rw [h5]
          · exact hB'
          · exact shrinks_after net _ 1 _ hB'
        · omega
    rw [execRun]
    obtain ⟨hsh, hco⟩ := readStream_consumes net s.peer.conn
    unfold execStep Peer.readMessage
    generalize hrs : readStream net s.peer.conn = z at hsh hco
    obtain ⟨z1, c⟩ := z
    cases z1 with
    | none =>
      simp only []
      exact tail B _ (hsh B hB) (by simp only []; omega) hb hc
    | some x =>
      obtain ⟨body, id, len⟩ := x
      simp only []
      cases hn : (Message.newRaw body len id) with
      | ok msg =>
        simp only []
        obtain ⟨B', e, hB'⟩ := hco _ rfl B hB
        have hp := pushMessage_bound s.buf d msg hb
        refine tail B' _ (by rw [applyMessage_conn]; exact hB') (by simp only []; omega) hp.1 (by simp only []; rw [hp.2]; exact hc)
      | err e => simp only []; exact tail B _ (hsh B hB) (by simp only []; omega) hb hc
      | panic => exact ⟨_, _, rfl, by simp⟩
      | hang => exact ⟨_, _, rfl, fun _ => ⟨_, _, _, hn⟩⟩

end RustBit
