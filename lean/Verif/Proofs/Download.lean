/- The invariant of the download loop. -/
import Verif.Spec.Download
import Verif.Proofs.Stream

namespace RustBit
open Spec

/-! ### Histories -/

theorem choking_append (i : Bool) (a b : List Ev) : choking i (a ++ b) = choking (choking i a) b := by
  simp [choking]

theorem choking_sent (i : Bool) (a : List Ev) (x : Bytes) : choking i (a ++ [.sent x]) = choking i a := by
  simp [choking]

theorem received_append (f : Message → Bool) (a b : List Ev) :
    received f (a ++ b) = received f a ++ received f b := by simp [received]

theorem received_sent (f : Message → Bool) (a : List Ev) (x : Bytes) :
    received f (a ++ [.sent x]) = received f a := by simp [received]

theorem received_got (f : Message → Bool) (a : List Ev) (m : Message) :
    received f (a ++ [.got m]) = received f a ++ (if f m then [m] else []) := by
  rw [received_append]
  by_cases h : f m <;> simp [received, h]

theorem written_append (a b : List Ev) : written (a ++ b) = written a ++ written b := by simp [written]

theorem written_sent (a : List Ev) (x : Bytes) : written (a ++ [.sent x]) = written a ++ [x] := by
  rw [written_append]; rfl

theorem written_got (a : List Ev) (m : Message) : written (a ++ [.got m]) = written a := by
  rw [written_append]; simp [written]

theorem received_congr {f g : Message → Bool} {log : List Ev}
    (h : ∀ m, Ev.got m ∈ log → f m = g m) : received f log = received g log := by
  induction log with
  | nil => rfl
  | cons e t ih =>
    have ih := ih (fun m hm => h m (by simp [hm]))
    unfold received at ih ⊢
    cases e with
    | sent x => simpa using ih
    | got m =>
      have := h m (by simp)
      simp only [List.filterMap_cons, this, ih]

theorem eachWrite_nil (Q : List Ev → Bytes → Prop) : EachWrite Q [] := by
  intro pre x post h; simp at h

theorem append_singleton_eq {α : Type} {l pre post : List α} {a b : α}
    (h : l ++ [a] = pre ++ b :: post) :
    (post = [] ∧ l = pre ∧ a = b) ∨ ∃ post', post = post' ++ [a] ∧ l = pre ++ b :: post' := by
  rcases List.eq_nil_or_concat post with hp | ⟨post', z, hp⟩
  · subst hp
    obtain ⟨h1, h2⟩ := List.append_inj' h rfl
    simp at h2
    exact .inl ⟨rfl, h1, h2⟩
  · rw [List.concat_eq_append] at hp
    rw [hp, show pre ++ b :: (post' ++ [z]) = (pre ++ b :: post') ++ [z] by simp] at h
    obtain ⟨h1, h2⟩ := List.append_inj' h rfl
    simp at h2
    subst h2
    exact .inr ⟨post', hp, h1⟩

theorem eachWrite_got {Q : List Ev → Bytes → Prop} {log : List Ev} (h : EachWrite Q log) (m : Message) :
    EachWrite Q (log ++ [.got m]) := by
  intro pre x post e
  rcases append_singleton_eq e with ⟨-, -, h2⟩ | ⟨post', -, h1⟩
  · cases h2
  · exact h _ _ _ h1

theorem eachWrite_sent {Q : List Ev → Bytes → Prop} {log : List Ev} (h : EachWrite Q log) (x : Bytes)
    (hx : Q log x) : EachWrite Q (log ++ [.sent x]) := by
  intro pre y post e
  rcases append_singleton_eq e with ⟨-, h1, h2⟩ | ⟨post', -, h1⟩
  · cases h2; rw [← h1]; exact hx
  · exact h _ _ _ h1

theorem eachWrite_imp {Q R : List Ev → Bytes → Prop} {log : List Ev} (h : EachWrite Q log)
    (hqr : ∀ pre x post, log = pre ++ .sent x :: post → Q pre x → R pre x) : EachWrite R log :=
  fun pre x post e => hqr pre x post e (h pre x post e)

/-! ### What one message does to the peer -/

theorem applyContent_same (p : Peer) (m : Message) :
    (p.applyContent m).choked = p.choked ∧ (p.applyContent m).log = p.log ∧
    (p.applyContent m).conn = p.conn ∧ (p.applyContent m).infoHash = p.infoHash ∧
    (p.applyContent m).id = p.id := by
  unfold Peer.applyContent
  split
  · simp
  · split <;> simp
  · simp
  · simp

theorem applyState_same (p : Peer) (m : Message) :
    (p.applyState m).log = p.log ∧ (p.applyState m).conn = p.conn ∧
    (p.applyState m).infoHash = p.infoHash ∧ (p.applyState m).id = p.id := by
  unfold Peer.applyState
  have := applyContent_same p m
  split
  · simp
  · split
    · simp
    · split
      · exact ⟨this.2.1, this.2.2.1, this.2.2.2.1, this.2.2.2.2⟩
      · simp

theorem applyState_choked (p : Peer) (m : Message) :
    (p.applyState m).choked = (if m.id = 0 then true else if m.id = 1 then false else p.choked) := by
  unfold Peer.applyState
  have := (applyContent_same p m).1
  by_cases h0 : m.id = 0
  · simp [h0]
  · by_cases h1 : m.id = 1
    · simp [h1]
    · simp only [h0, h1, if_false]
      split
      · exact this
      · rfl

theorem choking_got (i : Bool) (a : List Ev) (m : Message) :
    choking i (a ++ [.got m]) =
      (if m.id = 0 then true else if m.id = 1 then false else choking i a) := by
  simp [choking]

theorem readMessage_cases {ε : Type} (net : Net) (p : Peer) :
    ∃ c r, (p.readMessage net : Res ε (Option Message) × Peer) = (r, { p with conn := c }) ∧
      c = (readStream net p.conn).2 ∧
      (r = .ok none ∨ r = .panic ∨ r = .hang ∨ ∃ m body len id, r = .ok (some m) ∧
        (readStream net p.conn).1 = some (body, id, len) ∧ Message.newRaw body len id = .ok m) := by
  unfold Peer.readMessage
  cases h : readStream net p.conn with
  | mk r c =>
    cases r with
    | none => exact ⟨c, _, rfl, rfl, .inl rfl⟩
    | some x =>
      obtain ⟨body, id, len⟩ := x
      cases hn : Message.newRaw body len id with
      | ok m => exact ⟨c, .ok (some m), by simp [hn], rfl, .inr (.inr (.inr ⟨m, body, len, id, rfl, rfl, hn⟩))⟩
      | err e => exact ⟨c, .ok none, by simp [hn], rfl, .inl rfl⟩
      | panic => exact ⟨c, .panic, by simp [hn], rfl, .inr (.inl rfl)⟩
      | hang => exact ⟨c, .hang, by simp [hn], rfl, .inr (.inr (.inl rfl))⟩

/-- The message came off the wire. -/
def FromWire (m : Message) : Prop := ∃ body len id, Message.newRaw body len id = .ok m

theorem newRaw_id {body : Bytes} {len : Nat} {id : UInt8} {m : Message}
    (h : Message.newRaw body len id = .ok m) : m.id = id ∧ m.length = len ∧ Message.contentOf body id = .ok m.content := by
  unfold Message.newRaw at h
  cases hc : Message.contentOf body id with
  | ok c =>
    rw [hc] at h
    simp only [Res.bind_ok, Res.ok.injEq] at h
    subst h
    exact ⟨rfl, rfl, rfl⟩
  | err e => rw [hc] at h; simp at h
  | panic => rw [hc] at h; simp at h
  | hang => rw [hc] at h; simp at h

theorem contentOf_shape {body : Bytes} {id : UInt8} {c : ContentType}
    (h : Message.contentOf body id = .ok c) :
    ((∃ r, c = .request r) ↔ id = 6 ∨ id = 7) ∧ ((∃ e, c = .extension e) ↔ id = 20) ∧
    ((∃ x, c = .handshake x) ↔ id = 19) := by
  unfold Message.contentOf at h
  split at h
  · rename_i hi; subst hi
    simp only [Res.ok.injEq] at h; subst h; simp
  · split at h
    · rename_i hi; subst hi
      simp only [Res.ok.injEq] at h; subst h; simp
    · split at h
      · rename_i hi
        cases hr : (RequestMessage.fromBytes body : Res Bytes _) with
        | ok r =>
          simp only [hr, Res.bind_ok, Res.ok.injEq] at h; subst h
          rcases hi with rfl | rfl <;> simp
        | err e => simp [hr] at h
        | panic => simp [hr] at h
        | hang => simp [hr] at h
      · split at h
        · rename_i h67 hi; subst hi
          cases hr : ExtensionMessage.fromBytes body with
          | ok r => simp only [hr, Res.bind_ok, Res.ok.injEq] at h; subst h; simp
          | err e => simp [hr] at h
          | panic => simp [hr] at h
          | hang => simp [hr] at h
        · split at h
          · rename_i hi; subst hi
            cases hr : (HandshakeMessage.fromBytes body : Res Bytes _) with
            | ok r => simp only [hr, Res.bind_ok, Res.ok.injEq] at h; subst h; simp
            | err e => simp [hr] at h
            | panic => simp [hr] at h
            | hang => simp [hr] at h
          · rename_i h2 h5 h67 h20 h19
            simp only [Res.ok.injEq] at h; subst h
            have h6 : id ≠ 6 := fun e => h67 (.inr e)
            have h7 : id ≠ 7 := fun e => h67 (.inl e)
            simp [h20, h19, h6, h7]

/-- For messages off the wire, the filter of the code selects the answers. -/
theorem filter_eq_isAnswer (d : Downloadable) {m : Message} (h : FromWire m) :
    d.messageFilter m = isAnswer d m := by
  obtain ⟨body, len, id, h⟩ := h
  obtain ⟨h1, h2, h3⟩ := newRaw_id h
  have := (contentOf_shape h3).1
  cases d with
  | info => rfl
  | block a b c =>
    simp only [Downloadable.messageFilter, Message.isRequest, isAnswer, h1]
    cases hc : m.content with
    | request r =>
      have : id = 6 ∨ id = 7 := this.mp ⟨r, hc⟩
      simp [this]
    | _ =>
      have : ¬ (id = 6 ∨ id = 7) := fun x => by
        obtain ⟨r, hr⟩ := this.mpr x
        rw [hc] at hr
        cases hr
      simp [this]

/-! ### The loop invariant -/

/-- The history does not begin with an (unsolicited) answer. -/
def Solicited (d : Downloadable) (log : List Ev) : Prop :=
  ∀ x t, log = .got x :: t → d.messageFilter x = false

theorem Solicited.prefix {d : Downloadable} {a b : List Ev} (h : Solicited d (a ++ b)) : Solicited d a := by
  intro x t e
  exact h x (t ++ b) (by simp [e])

/-- What holds of every request written: the peer was not choking, no request was outstanding, the block
asked for is the first one missing. -/
def RequestOk (m : Build) (d : Downloadable) (cap : Nat) (c0 : Bool) (pre : List Ev) (x : Bytes) : Prop :=
  choking c0 pre = false ∧ (written pre).length ≤ (received (d.messageFilter) pre).length ∧
  (Solicited d pre → (written pre).length = (received (d.messageFilter) pre).length) ∧
  (received (d.messageFilter) pre).length < cap ∧
  ∃ (q : Peer) (msg : Message), d.request m q (received (d.messageFilter) pre).length = (.ok msg : Res DownloadableError Message) ∧
    x = msg.asBytes

/-- The invariant, `new` being the history since the start of the loop. -/
structure LoopInv (m : Build) (d : Downloadable) (cap : Nat) (c0 : Bool) (log0 new : List Ev)
    (s : DState) : Prop where
  log : s.peer.log = log0 ++ new
  capacity : s.buf.capacity = cap
  buffer : s.buf.buffer = received d.messageFilter new
  expected : s.buf.expectedSize = (written new).length
  oneOut : (written new).length ≤ (received d.messageFilter new).length + 1
  room : (received d.messageFilter new).length < cap ∨ new = []
  choked : s.peer.choked = choking c0 new
  noChoke : ∀ x, Ev.got x ∈ new → x.id ≠ 0
  steady : Solicited d new → new = [] ∨ (written new).length = (received d.messageFilter new).length + 1
  wire : ∀ x, Ev.got x ∈ new → FromWire x
  writes : EachWrite (RequestOk m d cap c0) new

/-- What holds when the loop is left. -/
structure LoopEnd (m : Build) (d : Downloadable) (cap : Nat) (c0 : Bool) (log0 new : List Ev)
    (r : Res DownloadableError Bytes) (p : Peer) : Prop where
  log : p.log = log0 ++ new
  oneOut : (written new).length ≤ (received d.messageFilter new).length + 1
  choke : ∀ pre x post, new = pre ++ .got x :: post → x.id = 0 → 0 < cap →
    post = [] ∧ r = .err .chokedPeer
  wire : ∀ x, Ev.got x ∈ new → FromWire x
  writes : EachWrite (RequestOk m d cap c0) new
  bounded : 0 < cap → (received d.messageFilter new).length ≤ cap
  ok : ∀ b, r = .ok b → cap ≤ (received d.messageFilter new).length ∧
    b = ((received d.messageFilter new).take cap).flatMap Message.contentData

/-- Facts after the message of an iteration has been handled. -/
structure MidInv (m : Build) (d : Downloadable) (cap : Nat) (c0 : Bool) (log0 new : List Ev)
    (s : DState) : Prop where
  log : s.peer.log = log0 ++ new
  capacity : s.buf.capacity = cap
  buffer : s.buf.buffer = (received d.messageFilter new).take cap
  bounded : 0 < cap → (received d.messageFilter new).length ≤ cap
  expected : s.buf.expectedSize = (written new).length
  oneOut : (written new).length ≤ (received d.messageFilter new).length + 1
  choked : s.peer.choked = choking c0 new
  choke : ∀ pre x post, new = pre ++ .got x :: post → x.id = 0 → post = []
  steady : Solicited d new → (written new).length = (received d.messageFilter new).length + 1 ∨
    (written new).length = (received d.messageFilter new).length
  noData : 0 < cap → ∀ pre x, new = pre ++ [.got x] → x.id = 0 → (received d.messageFilter new).length < cap
  wire : ∀ x, Ev.got x ∈ new → FromWire x
  writes : EachWrite (RequestOk m d cap c0) new

theorem flow_tail {m : Build} {net : Net} {d : Downloadable} {cap : Nat} {c0 : Bool} {log0 new : List Ev}
    {s : DState} (h : MidInv m d cap c0 log0 new s) :
    (∃ s' new', execTail m net d s = .again s' ∧ LoopInv m d cap c0 log0 new' s' ∧
      (new' = new ∨ ∃ x, new' = new ++ [.sent x])
      ∧ (new' = new → (written new).length = (received d.messageFilter new).length + 1)
      ∧ new' ≠ []) ∨
    (∃ r p new', execTail m net d s = .done r p ∧ LoopEnd m d cap c0 log0 new' r p
      ∧ (new' = new ∨ ∃ x, new' = new ++ [.sent x])) := by
  -- a choke in the history means the peer is choked now
  have hch : ∀ pre x post, new = pre ++ .got x :: post → x.id = 0 → choking c0 new = true := by
    intro pre x post e hx
    have := h.choke pre x post e hx
    subst this
    rw [e, choking_got]
    simp [hx]
  have hlen : s.buf.buffer.length = min cap (received d.messageFilter new).length := by
    rw [h.buffer, List.length_take]
  unfold execTail
  by_cases hfull : s.buf.isFull = true
  · simp only [hfull, if_true]
    right
    refine ⟨_, _, new, rfl, ?_, .inl rfl⟩
    have hf : min cap (received d.messageFilter new).length = cap := by
      have := hfull
      simp only [MessageBuffer.isFull, beq_iff_eq, hlen, h.capacity] at this
      exact this
    refine ⟨h.log, h.oneOut, ?_, h.wire, h.writes, h.bounded, ?_⟩
    · intro pre x post e hx hc
      exfalso
      have hp := h.choke pre x post e hx
      subst hp
      have := h.noData hc pre x e hx
      omega
    · intro b hb
      simp only [Res.ok.injEq] at hb
      subst hb
      refine ⟨by omega, ?_⟩
      rw [MessageBuffer.assembleContent, h.buffer]
  · simp only [hfull]
    have hcap : 0 < cap := by
      rcases Nat.eq_zero_or_pos cap with h0 | h0
      · exfalso; apply hfull
        simp [MessageBuffer.isFull, hlen, h.capacity, h0]
      · exact h0
    have hlt : (received d.messageFilter new).length < cap := by
      have hb := h.bounded hcap
      rcases Nat.lt_or_ge (received d.messageFilter new).length cap with h1 | h1
      · exact h1
      · exfalso; apply hfull
        simp only [MessageBuffer.isFull, beq_iff_eq, hlen, h.capacity]
        omega
    have hbuf : s.buf.buffer = received d.messageFilter new := by
      rw [h.buffer, List.take_of_length_le (by omega)]
    by_cases hck : s.peer.choked = true
    · simp only [hck, if_true]
      right
      refine ⟨_, _, new, rfl, ?_, .inl rfl⟩
      refine ⟨h.log, h.oneOut, ?_, h.wire, h.writes, h.bounded, ?_⟩
      · intro pre x post e hx hc
        exact ⟨h.choke pre x post e hx, rfl⟩
      · intro b hb; simp at hb
    · simp only [hck]
      have hnc : choking c0 new = false := by rw [← h.choked]; simpa using hck
      have hnochoke : ∀ x, Ev.got x ∈ new → x.id ≠ 0 := by
        intro x hx h0
        obtain ⟨pre, post, e⟩ := List.append_of_mem hx
        have := hch pre x post e h0
        rw [hnc] at this
        cases this
      unfold MessageBuffer.requestNextMessage
      by_cases hexp : (s.buf.isLenAsExpected || s.buf.isFull) = true
      · simp only [hexp, if_true]
        have hw : (written new).length = (received d.messageFilter new).length + 1 := by
          have : s.buf.isLenAsExpected = true := by
            cases h1 : s.buf.isLenAsExpected
            · simp [h1, hfull] at hexp
            · rfl
          simp only [MessageBuffer.isLenAsExpected, beq_iff_eq, h.expected, hbuf] at this
          exact this
        by_cases hidle : s.idle + 1 > 10
        · simp only [hidle, if_true]
          right
          refine ⟨_, _, new, rfl, ?_, .inl rfl⟩
          refine ⟨h.log, h.oneOut, ?_, h.wire, h.writes, h.bounded, ?_⟩
          · intro pre x post e hx hc
            exact absurd (hch pre x post e hx) (by rw [hnc]; simp)
          · intro b hb; simp at hb
        · simp only [hidle]
          left
          refine ⟨_, new, rfl, ?_, .inl rfl, fun _ => hw, ?_⟩
          · exact ⟨h.log, h.capacity, hbuf, h.expected, h.oneOut, .inl hlt, h.choked, hnochoke, fun _ => .inr hw, h.wire, h.writes⟩
          · intro e
            rw [e] at hw
            simp [written, received] at hw
      · simp only [hexp]
        have hne : (written new).length ≠ (received d.messageFilter new).length + 1 := by
          intro e
          apply hexp
          have : s.buf.isLenAsExpected = true := by
            simp only [MessageBuffer.isLenAsExpected, beq_iff_eq, h.expected, hbuf]
            exact e
          simp [this]
        have hle := h.oneOut
        rw [hbuf]
        cases hreq : (d.request m s.peer (received d.messageFilter new).length : Res DownloadableError Message) with
        | ok msg =>
          have hq : EachWrite (RequestOk m d cap c0) (new ++ [.sent msg.asBytes]) :=
            eachWrite_sent h.writes _ ⟨hnc, by omega, fun hs => by
              have := h.steady hs
              omega, hlt, s.peer, msg, hreq, rfl⟩
          have hlog : (s.peer.sendMessage net msg).log = log0 ++ (new ++ [.sent msg.asBytes]) := by
            simp [Peer.sendMessage, Peer.write, h.log]
          have hwire : ∀ x, Ev.got x ∈ new ++ [.sent msg.asBytes] → FromWire x := by
            intro x hx
            simp only [List.mem_append, List.mem_singleton, reduceCtorEq, or_false] at hx
            exact h.wire x hx
          have hnochoke' : ∀ x, Ev.got x ∈ new ++ [.sent msg.asBytes] → x.id ≠ 0 := by
            intro x hx
            simp only [List.mem_append, List.mem_singleton, reduceCtorEq, or_false] at hx
            exact hnochoke x hx
          simp only []
          by_cases hidle : s.idle + 1 > 10
          · simp only [hidle, if_true]
            right
            refine ⟨_, _, new ++ [.sent msg.asBytes], rfl, ?_, .inr ⟨_, rfl⟩⟩
            refine ⟨hlog, by rw [written_sent, received_sent]; simp; omega, ?_, hwire, hq, ?_, ?_⟩
            · intro pre x post e hx hc
              exact absurd hx (hnochoke' x (by rw [e]; simp))
            · intro _; rw [received_sent]; omega
            · intro b hb; simp at hb
          · simp only [hidle]
            left
            refine ⟨_, new ++ [.sent msg.asBytes], rfl, ?_, .inr ⟨_, rfl⟩, ?_, by simp⟩
            · refine ⟨hlog, h.capacity, ?_, ?_, ?_, ?_, ?_, hnochoke', ?_, hwire, hq⟩
              · rw [received_sent]
              · rw [written_sent]; simp [h.expected]
              · rw [written_sent, received_sent]; simp; omega
              · rw [received_sent]; exact .inl hlt
              · rw [choking_sent]
                simp [Peer.sendMessage, Peer.write, h.choked]
              · intro hs
                have := h.steady hs.prefix
                rw [written_sent, received_sent]
                simp
                omega
            · intro e
              have := congrArg List.length e
              simp at this
        | err e =>
          simp only []
          right
          refine ⟨_, _, new, rfl, ?_, .inl rfl⟩
          refine ⟨h.log, h.oneOut, ?_, h.wire, h.writes, h.bounded, ?_⟩
          · intro pre x post e hx hc
            exact absurd hx (hnochoke x (by rw [e]; simp))
          · intro b hb; simp at hb
        | panic =>
          simp only []
          right
          refine ⟨_, _, new, rfl, ?_, .inl rfl⟩
          refine ⟨h.log, h.oneOut, ?_, h.wire, h.writes, h.bounded, ?_⟩
          · intro pre x post e hx hc
            exact absurd hx (hnochoke x (by rw [e]; simp))
          · intro b hb; simp at hb
        | hang =>
          simp only []
          right
          refine ⟨_, _, new, rfl, ?_, .inl rfl⟩
          refine ⟨h.log, h.oneOut, ?_, h.wire, h.writes, h.bounded, ?_⟩
          · intro pre x post e hx hc
            exact absurd hx (hnochoke x (by rw [e]; simp))
          · intro b hb; simp at hb

theorem LoopInv.mid {m : Build} {d : Downloadable} {cap : Nat} {c0 : Bool} {log0 new : List Ev}
    {s : DState} (h : LoopInv m d cap c0 log0 new s) : MidInv m d cap c0 log0 new s := by
  have hbd : 0 < cap → (received d.messageFilter new).length ≤ cap := by
    intro hc
    rcases h.room with h1 | h1
    · omega
    · subst h1; simp [received]
  refine ⟨h.log, h.capacity, ?_, hbd, h.expected, h.oneOut, h.choked, ?_, ?_, ?_, h.wire, h.writes⟩
  · rw [h.buffer]
    rcases h.room with h1 | h1
    · rw [List.take_of_length_le (by omega)]
    · subst h1; simp [received]
  · intro pre x post e hx
    exact absurd hx (h.noChoke x (by rw [e]; simp))
  · intro hs
    rcases h.steady hs with h1 | h1
    · subst h1; right; simp [written, received]
    · exact .inl h1
  · intro hc pre x e hx
    exact absurd hx (h.noChoke x (by rw [e]; simp))

theorem filter_choke (d : Downloadable) {x : Message} (hw : FromWire x) (h : x.id = 0) :
    d.messageFilter x = false := by
  rw [filter_eq_isAnswer d hw]
  obtain ⟨body, len, id, hn⟩ := hw
  obtain ⟨h1, -, h3⟩ := newRaw_id hn
  cases d with
  | info =>
    simp only [isAnswer]
    cases hc : x.content with
    | extension e =>
      have := (contentOf_shape h3).2.1.mp ⟨e, hc⟩
      rw [← h1, h] at this
      simp at this
    | _ => rfl
  | block a b c => simp [isAnswer, h]

theorem LoopInv.got {m : Build} {d : Downloadable} {cap : Nat} {c0 : Bool} {log0 new : List Ev}
    {s : DState} (h : LoopInv m d cap c0 log0 new s) {x : Message} (hw : FromWire x) (i : Nat) :
    MidInv m d cap c0 log0 (new ++ [.got x]) ⟨s.peer.applyMessage x, s.buf.pushMessage d x, i⟩ := by
  have hm := h.mid
  have hr : (received d.messageFilter (new ++ [.got x])).length =
      (received d.messageFilter new).length + (if d.messageFilter x then 1 else 0) := by
    rw [received_got]; split <;> simp
  have hchoke : ∀ pre y post, new ++ [.got x] = pre ++ .got y :: post → y.id = 0 → post = [] ∧ x = y := by
    intro pre y post e hy
    rcases append_singleton_eq e with ⟨h1, -, h2⟩ | ⟨post', -, h1⟩
    · cases h2; exact ⟨h1, rfl⟩
    · exact absurd hy (h.noChoke y (by rw [h1]; simp))
  have hbd : 0 < cap → (received d.messageFilter (new ++ [.got x])).length ≤ cap := by
    intro hc
    rw [hr]
    rcases h.room with h1 | h1
    · split <;> omega
    · subst h1
      simp [received]
      split <;> omega
  refine ⟨?_, ?_, ?_, hbd, ?_, ?_, ?_, ?_, ?_, ?_, ?_, eachWrite_got h.writes x⟩
  · simp [Peer.applyMessage, h.log]
  · unfold MessageBuffer.pushMessage; split <;> exact h.capacity
  · unfold MessageBuffer.pushMessage
    rw [received_got]
    by_cases hf : d.messageFilter x = true
    · simp only [hf, Bool.true_and, if_true]
      by_cases hfull : s.buf.isFull = true
      · simp only [hfull]
        have : s.buf.buffer.length = cap := by
          rw [← h.capacity]; simpa [MessageBuffer.isFull] using hfull
        rw [h.buffer] at this
        simp only [Bool.not_true, Bool.false_eq_true, if_false]
        rw [h.buffer, List.take_left' this]
      · simp only [hfull]
        have : s.buf.buffer.length ≠ cap := by
          rw [← h.capacity]; simpa [MessageBuffer.isFull] using hfull
        rw [h.buffer] at this
        have hle : (received d.messageFilter new).length + 1 ≤ cap := by
          rcases h.room with h1 | h1
          · omega
          · subst h1; simp [received] at this ⊢; omega
        simp only [Bool.not_false, if_true]
        rw [h.buffer, List.take_of_length_le (by simp; omega)]
    · simp only [hf, Bool.false_and, if_false, Bool.false_eq_true, List.append_nil]
      exact hm.buffer
  · rw [written_got]; unfold MessageBuffer.pushMessage; split <;> exact h.expected
  · rw [written_got, hr]; have := h.oneOut; omega
  · rw [choking_got]
    simp only [Peer.applyMessage]
    rw [applyState_choked, h.choked]
  · intro pre y post e hy; exact (hchoke pre y post e hy).1
  · intro hs
    rw [written_got, hr]
    rcases h.steady hs.prefix with h1 | h1
    · subst h1
      have := hs x [] rfl
      right; simp [this, written, received]
    · split <;> omega
  · intro hc pre y e hy
    obtain ⟨-, rfl⟩ := hchoke pre y [] e hy
    rw [hr, filter_choke d hw hy]
    rcases h.room with h1 | h1
    · simpa using h1
    · subst h1; simpa [received] using hc
  · intro y hy
    simp only [List.mem_append, List.mem_singleton, Ev.got.injEq] at hy
    rcases hy with hy | rfl
    · exact h.wire y hy
    · exact hw

/-- One iteration. -/
theorem flow_step {m : Build} {net : Net} {d : Downloadable} {cap : Nat} {c0 : Bool} {log0 new : List Ev}
    {s : DState} (h : LoopInv m d cap c0 log0 new s) :
    (∃ s' new', execStep m net d s = .again s' ∧ LoopInv m d cap c0 log0 new' s' ∧ new <+: new') ∨
    (∃ r p new', execStep m net d s = .done r p ∧ LoopEnd m d cap c0 log0 new' r p ∧ new <+: new') := by
  have stop : ∀ (r : Res DownloadableError Bytes) (p : Peer), p.log = s.peer.log →
      (∀ b, r ≠ .ok b) → LoopEnd m d cap c0 log0 new r p := by
    intro r p hp hr
    refine ⟨by rw [hp, h.log], h.oneOut, ?_, h.wire, h.writes, h.mid.bounded, fun b hb => absurd hb (hr b)⟩
    intro pre x post e hx
    exact absurd hx (h.noChoke x (by rw [e]; simp))
  unfold execStep
  obtain ⟨c, r, hr, -, hcase⟩ := readMessage_cases (ε := DownloadableError) net s.peer
  rw [hr]
  rcases hcase with rfl | rfl | rfl | ⟨x, body, len, id, rfl, -, hn⟩
  · have hm : MidInv m d cap c0 log0 new { s with peer := { s.peer with conn := c } } := by
      have := h.mid
      exact ⟨this.log, this.capacity, this.buffer, this.bounded, this.expected, this.oneOut, this.choked,
        this.choke, this.steady, this.noData, this.wire, this.writes⟩
    rcases flow_tail (net := net) hm with ⟨s', new', h1, h2, h3, -⟩ | ⟨r, p, new', h1, h2, h3⟩
    · refine .inl ⟨s', new', h1, h2, ?_⟩
      rcases h3 with rfl | ⟨x, rfl⟩ <;> simp
    · refine .inr ⟨r, p, new', h1, h2, ?_⟩
      rcases h3 with rfl | ⟨x, rfl⟩ <;> simp
  · exact .inr ⟨_, _, new, rfl, stop _ _ rfl (by simp), List.prefix_refl _⟩
  · exact .inr ⟨_, _, new, rfl, stop _ _ rfl (by simp), List.prefix_refl _⟩
  · have hm := LoopInv.got (s := { s with peer := { s.peer with conn := c } }) (x := x)
      ⟨h.log, h.capacity, h.buffer, h.expected, h.oneOut, h.room, h.choked, h.noChoke, h.steady, h.wire,
        h.writes⟩ ⟨body, len, id, hn⟩ 0
    rcases flow_tail (net := net) hm with ⟨s', new', h1, h2, h3, -⟩ | ⟨r, p, new', h1, h2, h3⟩
    · refine .inl ⟨s', new', h1, h2, ?_⟩
      rcases h3 with rfl | ⟨x, rfl⟩ <;> simp
    · refine .inr ⟨r, p, new', h1, h2, ?_⟩
      rcases h3 with rfl | ⟨x, rfl⟩ <;> simp

theorem flow_run {m : Build} {net : Net} {d : Downloadable} {cap : Nat} {c0 : Bool} {log0 : List Ev}
    (f : Nat) : ∀ {new : List Ev} {s : DState}, LoopInv m d cap c0 log0 new s →
    (∃ s' new', execRun m net d f s = .again s' ∧ LoopInv m d cap c0 log0 new' s' ∧ new <+: new') ∨
    (∃ r p new', execRun m net d f s = .done r p ∧ LoopEnd m d cap c0 log0 new' r p ∧ new <+: new') := by
  induction f with
  | zero => intro new s h; exact .inl ⟨s, new, rfl, h, List.prefix_refl _⟩
  | succ f ih =>
    intro new s h
    rw [execRun]
    rcases flow_step (net := net) h with ⟨s', new', h1, h2, h3⟩ | ⟨r, p, new', h1, h2, h3⟩
    · rw [h1]
      rcases ih h2 with ⟨s'', new'', h4, h5, h6⟩ | ⟨r, p, new'', h4, h5, h6⟩
      · exact .inl ⟨s'', new'', h4, h5, h3.trans h6⟩
      · exact .inr ⟨r, p, new'', h4, h5, h3.trans h6⟩
    · rw [h1]
      exact .inr ⟨r, p, new', rfl, h2, h3⟩

theorem loopInv_init (m : Build) (d : Downloadable) (cap : Nat) (p : Peer) :
    LoopInv m d cap p.choked p.log [] ⟨p, ⟨[], cap, 0⟩, 0⟩ := by
  refine ⟨by simp, rfl, rfl, rfl, by simp [written], .inr rfl, rfl, by simp, fun _ => .inl rfl, by simp,
    eachWrite_nil _⟩

/-- A run of `execute`, cut off anywhere. -/
theorem execute_history (m : Build) (net : Net) (d : Downloadable) (f : Nat) (p : Peer) (cap : Nat) :
    ∃ new, LoopEnd m d cap p.choked p.log new (execute m net d f p cap).1 (execute m net d f p cap).2 := by
  unfold execute
  rcases flow_run (net := net) f (loopInv_init m d cap p) with ⟨s', new, h1, h2, -⟩ | ⟨r, q, new, h1, h2, -⟩
  · rw [h1]
    refine ⟨new, h2.log, h2.oneOut, ?_, h2.wire, h2.writes, h2.mid.bounded, by simp⟩
    intro pre x post e hx
    exact absurd hx (h2.noChoke x (by rw [e]; simp))
  · rw [h1]; exact ⟨new, h2⟩

/-! ### Opening a connection -/

/-- The state a peer must have after the history `new`. -/
structure Tracks (p0 : Peer) (new : List Ev) (p : Peer) : Prop where
  log : p.log = p0.log ++ new
  choked : p.choked = choking p0.choked new
  size : p.metadataSize = announcedSize p0.metadataSize new
  hash : p.infoHash = p0.infoHash
  id : p.id = p0.id
  wire : ∀ x, Ev.got x ∈ new → FromWire x

theorem tracks_refl (p : Peer) : Tracks p [] p :=
  ⟨by simp, rfl, rfl, rfl, rfl, by simp⟩

theorem Tracks.conn {p0 p : Peer} {new : List Ev} (h : Tracks p0 new p) (c : Conn) :
    Tracks p0 new { p with conn := c } := ⟨h.log, h.choked, h.size, h.hash, h.id, h.wire⟩

theorem Tracks.sent {p0 p : Peer} {new : List Ev} (h : Tracks p0 new p) (c : Conn) (x : Bytes) :
    Tracks p0 (new ++ [.sent x]) { p with conn := c, log := p.log ++ [.sent x] } := by
  refine ⟨by simp [h.log], by simp [choking, h.choked], by simp [announcedSize, h.size], h.hash, h.id, ?_⟩
  intro y hy
  simp only [List.mem_append, List.mem_singleton, reduceCtorEq, or_false] at hy
  exact h.wire y hy

theorem applyState_size {p : Peer} {m : Message} (hw : FromWire m) :
    (p.applyState m).metadataSize = (match m.content with
      | .extension x => x.metadataSize.getD p.metadataSize
      | _ => p.metadataSize) := by
  obtain ⟨body, len, id, hn⟩ := hw
  obtain ⟨h1, -, h3⟩ := newRaw_id hn
  have hsh := (contentOf_shape h3).2.1
  unfold Peer.applyState Peer.applyContent
  cases hc : m.content with
  | extension e =>
    have : m.id = 20 := by rw [h1]; exact hsh.mp ⟨e, hc⟩
    simp only [this, ExtensionMessage.isHandshake]
    have hs : e.metadataSize = none ∨ ∃ n, e.metadataSize = some n := by
      cases e.metadataSize <;> simp
    rcases hs with hs | ⟨n, hs⟩ <;> simp [hs]
  | _ =>
    split
    · rfl
    · split
      · rfl
      · split <;> rfl

theorem Tracks.got {p0 p : Peer} {new : List Ev} (h : Tracks p0 new p) {m : Message} (hw : FromWire m) :
    Tracks p0 (new ++ [.got m]) (p.applyMessage m) := by
  obtain ⟨-, -, h3, h4⟩ := applyState_same p m
  refine ⟨by simp [Peer.applyMessage, h.log], ?_, ?_, by simp [Peer.applyMessage, h3, h.hash],
    by simp [Peer.applyMessage, h4, h.id], ?_⟩
  · rw [choking_got]
    simp only [Peer.applyMessage]
    rw [applyState_choked, h.choked]
  · simp only [Peer.applyMessage]
    rw [applyState_size hw, h.size]
    simp only [announcedSize, List.foldl_append, List.foldl_cons, List.foldl_nil]
    cases m.content <;> rfl
  · intro y hy
    simp only [List.mem_append, List.mem_singleton, Ev.got.injEq] at hy
    rcases hy with hy | rfl
    · exact h.wire y hy
    · exact hw

theorem readAndApply_cases (net : Net) (p : Peer) :
    ∃ c, readAndApply net p = (.ok (), { p with conn := c }) ∨
      readAndApply net p = (.panic, { p with conn := c }) ∨
      readAndApply net p = (.hang, { p with conn := c }) ∨
      ∃ m, FromWire m ∧ readAndApply net p = (.ok (), ({ p with conn := c }).applyMessage m) := by
  obtain ⟨c, r, hr, -, hcase⟩ := readMessage_cases (ε := PeerManagerError) net p
  refine ⟨c, ?_⟩
  unfold readAndApply
  rw [hr]
  rcases hcase with rfl | rfl | rfl | ⟨x, body, len, id, rfl, -, hn⟩
  · exact .inl rfl
  · exact .inr (.inl rfl)
  · exact .inr (.inr (.inl rfl))
  · exact .inr (.inr (.inr ⟨x, ⟨body, len, id, hn⟩, rfl⟩))

theorem readyLoop_history (net : Net) (k : Nat) : ∀ {p0 p : Peer} {new : List Ev}, Tracks p0 new p →
    ∃ gots : List Message, Tracks p0 (new ++ gots.map .got) (readyLoop net k p).2 ∧
      ((readyLoop net k p).1 = .ok () → (readyLoop net k p).2.isReady = true) := by
  induction k with
  | zero => intro p0 p new h; exact ⟨[], by simpa [readyLoop] using h, by simp [readyLoop]⟩
  | succ k ih =>
    intro p0 p new h
    rw [readyLoop]
    obtain ⟨c, hc⟩ := readAndApply_cases net p
    rcases hc with hc | hc | hc | ⟨m, hw, hc⟩
    · rw [hc]
      simp only []
      split
      · rename_i hr; exact ⟨[], by simpa using h.conn c, fun _ => hr⟩
      · exact ih (h.conn c)
    · rw [hc]; exact ⟨[], by simpa using h.conn c, by simp⟩
    · rw [hc]; exact ⟨[], by simpa using h.conn c, by simp⟩
    · rw [hc]
      simp only []
      split
      · rename_i hr; exact ⟨[m], by simpa using (h.conn c).got hw, fun _ => hr⟩
      · obtain ⟨gots, h1, h2⟩ := ih ((h.conn c).got hw)
        exact ⟨m :: gots, by simpa using h1, h2⟩

/-- The three byte strings that open a connection. -/
def opening (p : Peer) : List Bytes :=
  [(newHandshake p.infoHash p.id).asBytes, newInterested.asBytes, extensionHandshakeBytes]

/-- The history of `initPeer`, whatever its outcome: nothing, or the handshake alone, or one more message,
or also the other two opening messages, then only messages received. -/
theorem initPeer_history (net : Net) (p : Peer) (ha : p.active = false) :
    ∃ new, Tracks p new (initPeer net p).2 ∧ written new <+: opening p ∧
      ((initPeer net p).1 = .ok () → (initPeer net p).2.isReady = true ∧
        ∃ (m : Message) (x : HandshakeMessage) (gots : List Message),
          new = .sent (newHandshake p.infoHash p.id).asBytes :: .got m ::
            .sent newInterested.asBytes :: .sent extensionHandshakeBytes :: gots.map .got ∧
          m.content = .handshake x ∧ x.infoHash = p.infoHash) := by
  have wgot : ∀ gots : List Message, written (gots.map Ev.got) = [] := by
    intro gots; induction gots with
    | nil => rfl
    | cons a t ih => simp [written]
  have h1 : Tracks p [.sent (newHandshake p.infoHash p.id).asBytes]
      (p.sendMessage net (newHandshake p.infoHash p.id)) := by
    have := (tracks_refl p).sent (p.conn.writeAll net).2 (newHandshake p.infoHash p.id).asBytes
    simpa [Peer.sendMessage, Peer.write] using this
  have ha1 : (p.sendMessage net (newHandshake p.infoHash p.id)).active = false := by
    simp [Peer.sendMessage, Peer.write, ha]
  unfold initPeer
  generalize hp1 : p.sendMessage net (newHandshake p.infoHash p.id) = p1 at h1 ha1
  simp only []
  obtain ⟨c, hc⟩ := readAndApply_cases net p1
  rcases hc with hc | hc | hc | ⟨m, hw, hc⟩
  · rw [hc]
    have hn : (!({ p1 with conn := c } : Peer).active) = true := by simp [ha1]
    simp only []
    rw [if_pos hn]
    exact ⟨[_], h1.conn c, by simp [written, opening], by simp⟩
  · rw [hc]; exact ⟨[_], h1.conn c, by simp [written, opening], by simp⟩
  · rw [hc]; exact ⟨[_], h1.conn c, by simp [written, opening], by simp⟩
  · rw [hc]
    have h2 := (h1.conn c).got hw
    by_cases hact : (({ p1 with conn := c }).applyMessage m).active = true
    · have hm : ∃ x, m.content = .handshake x ∧ x.infoHash = p.infoHash := by
        have e : ({ p1 with conn := c } : Peer).active = false := ha1
        have e' : ({ p1 with conn := c } : Peer).infoHash = p.infoHash := h1.hash
        generalize ({ p1 with conn := c } : Peer) = q at e e' hact
        revert hact
        simp only [Peer.applyMessage, Peer.applyState, Peer.applyContent]
        split
        · simp [e]
        · split
          · simp [e]
          · split
            · split
              · simp [e]
              · split <;> simp [e]
              · rename_i x hx
                intro hh
                simp only [decide_eq_true_eq] at hh
                exact ⟨x, hx, by rw [← hh, e']⟩
              · simp [e]
            · simp [e]
      obtain ⟨x, hx, hxh⟩ := hm
      generalize (({ p1 with conn := c }).applyMessage m) = q at h2 hact
      simp only [hact, Bool.not_true, Bool.false_eq_true, if_false]
      have h3 := h2.sent (q.conn.writeAll net).2 newInterested.asBytes
      have e3 : q.sendMessage net newInterested =
          { q with conn := (q.conn.writeAll net).2, log := q.log ++ [.sent newInterested.asBytes] } := rfl
      rw [← e3] at h3
      generalize q.sendMessage net newInterested = q2 at h3
      have h4 := h3.sent (q2.conn.writeAll net).2 extensionHandshakeBytes
      have e4 : q2.sendMetadataHandshakeRequest net = ((q2.conn.writeAll net).1,
          { q2 with conn := (q2.conn.writeAll net).2, log := q2.log ++ [.sent extensionHandshakeBytes] }) := rfl
      rw [e4]
      generalize (Peer.mk _ _ _ _ _ _ (q2.conn.writeAll net).2 _ (q2.log ++ [.sent extensionHandshakeBytes])) = q3 at h4
      cases (q2.conn.writeAll net).1 with
      | false =>
        refine ⟨_, h4, ?_, by simp⟩
        simp [written, opening]
      | true =>
        simp only []
        obtain ⟨gots, h5, h6⟩ := readyLoop_history net 10 h4
        refine ⟨_, h5, ?_, ?_⟩
        · rw [written_append, wgot]; simp [written, opening]
        · intro hok
          exact ⟨h6 hok, m, x, gots, by simp, hx, hxh⟩
    · simp only [hact, Bool.not_false, if_true]
      refine ⟨_, h2, ?_, by simp⟩
      rw [written_got]; simp [written, opening]

/-- The history of a download over an initialised peer. -/
theorem download_history (m : Build) (net : Net) (d : Downloadable) (f : Nat) (p : Peer) :
    (∃ cap new, (d.capacity m p : Res DownloadableError Nat) = .ok cap ∧
      LoopEnd m d cap p.choked p.log new (d.download m net f p).1 (d.download m net f p).2) ∨
    ((d.download m net f p).2 = p ∧ (∀ cap, (d.capacity m p : Res DownloadableError Nat) ≠ .ok cap) ∧
      (∀ b, (d.download m net f p).1 ≠ .ok b)) := by
  unfold Downloadable.download
  cases hc : (d.capacity m p : Res DownloadableError Nat) with
  | ok cap =>
    obtain ⟨new, h⟩ := execute_history m net d f p cap
    exact .inl ⟨cap, new, rfl, h⟩
  | err e => exact .inr ⟨rfl, by simp, by simp⟩
  | panic => exact .inr ⟨rfl, by simp, by simp⟩
  | hang => exact .inr ⟨rfl, by simp, by simp⟩

end RustBit
