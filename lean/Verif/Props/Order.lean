/-
C33, exactly: the order of the requests for blocks, whatever the peer sends.
-/
import Verif.Props.Download
import Verif.Props.Messages

namespace RustBit
open Spec

/-- The history begins with an answer, to which there was no request. -/
def unasked (d : Downloadable) : List Ev → Bool
  | .got x :: _ => d.messageFilter x
  | _ => false

/-- The request for block `k`. -/
def AskedFor (m : Build) (d : Downloadable) (k : Nat) (x : Bytes) : Prop :=
  ∃ q msg, (d.request m q k : Res DownloadableError Message) = .ok msg ∧ x = msg.asBytes

/-- The `k`-th of the byte strings is the request for block `k + 1` as long as `k < j`, and for block `k` from then on. -/
def InTurn (m : Build) (d : Downloadable) (j : Nat) (ws : List Bytes) : Prop :=
  ∀ (k : Nat) (x : Bytes), ws[k]? = some x →
    AskedFor m d (if k < j then k + 1 else k) x

theorem InTurn.snoc {m : Build} {d : Downloadable} {j : Nat} {ws : List Bytes} (h : InTurn m d j ws) {msg : Message}
    {q : Peer}
    (hr : (d.request m q (if ws.length < j then ws.length + 1 else ws.length) : Res DownloadableError Message) = .ok msg) :
    InTurn m d j (ws ++ [msg.asBytes]) := by
  intro k x hk
  by_cases hl : k < ws.length
  · rw [List.getElem?_append_left hl] at hk; exact h k x hk
  · by_cases he : k = ws.length
    · subst he
      rw [List.getElem?_append_right (Nat.le_refl _)] at hk
      simp at hk
      exact ⟨q, msg, hr, hk.symm⟩
    · rw [List.getElem?_eq_none (by simp; omega)] at hk
      cases hk

/-- More may be wanted of what is not there. -/
theorem InTurn.more {m : Build} {d : Downloadable} {j : Nat} {ws : List Bytes} (h : InTurn m d ws.length ws) (hj : ws.length ≤ j) :
    InTurn m d j ws := by
  intro k x hk
  have hl : k < ws.length := by
    rcases Nat.lt_or_ge k ws.length with hl | hl
    · exact hl
    · rw [List.getElem?_eq_none hl] at hk; cases hk
  have := h k x hk
  rw [if_pos hl] at this
  rw [if_pos (by omega)]
  exact this

/-- Between rounds. -/
structure Turns (m : Build) (d : Downloadable) (log0 new : List Ev) (s : DState) : Prop where
  log : s.peer.log = log0 ++ new
  count : s.buf.expectedSize = (written new).length
  asked : unasked d new = false → InTurn m d 0 (written new) ∧
    ((written new).length = s.buf.buffer.length + 1 ∨ new = [] ∧ s.buf.buffer = [])
  unasked : unasked d new = true → ∃ j, 0 < j ∧ j ≤ (written new).length ∧ InTurn m d j (written new) ∧
    ((written new).length = s.buf.buffer.length + 1 ∨ (written new).length = s.buf.buffer.length ∧ j = (written new).length)

/-- After the message of a round. -/
structure Turning (m : Build) (d : Downloadable) (log0 new : List Ev) (s : DState) : Prop where
  log : s.peer.log = log0 ++ new
  count : s.buf.expectedSize = (written new).length
  asked : RustBit.unasked d new = false → InTurn m d 0 (written new) ∧
    ((written new).length = s.buf.buffer.length + 1 ∨ (written new).length = s.buf.buffer.length)
  unasked : RustBit.unasked d new = true →
    (InTurn m d (written new).length (written new) ∧ (written new).length + 1 = s.buf.buffer.length) ∨
    ∃ j, 0 < j ∧ j ≤ (written new).length ∧ InTurn m d j (written new) ∧
      ((written new).length = s.buf.buffer.length + 1 ∨ (written new).length = s.buf.buffer.length)

/-- In the end. -/
def Turned (m : Build) (d : Downloadable) (new : List Ev) : Prop :=
  (unasked d new = false → InTurn m d 0 (written new)) ∧
  (unasked d new = true → ∃ j, 0 < j ∧ InTurn m d j (written new))

theorem Turning.turned {m : Build} {d : Downloadable} {log0 new : List Ev} {s : DState} (h : Turning m d log0 new s) :
    Turned m d new := by
  refine ⟨fun hu => (h.asked hu).1, fun hu => ?_⟩
  rcases h.unasked hu with ⟨h1, -⟩ | ⟨j, h1, -, h2, -⟩
  · exact ⟨(written new).length + 1, Nat.succ_pos _, h1.more (Nat.le_succ _)⟩
  · exact ⟨j, h1, h2⟩

theorem Turns.turned {m : Build} {d : Downloadable} {log0 new : List Ev} {s : DState} (h : Turns m d log0 new s) :
    Turned m d new := by
  refine ⟨fun hu => (h.asked hu).1, fun hu => ?_⟩
  obtain ⟨j, h1, -, h2, -⟩ := h.unasked hu
  exact ⟨j, h1, h2⟩

theorem unasked_append (d : Downloadable) (new l : List Ev) (h : new ≠ []) : unasked d (new ++ l) = unasked d new := by
  cases new with
  | nil => exact absurd rfl h
  | cons e t => cases e <;> rfl

theorem unasked_sent (d : Downloadable) (new : List Ev) (x : Bytes) : unasked d (new ++ [.sent x]) = unasked d new := by
  cases new with
  | nil => rfl
  | cons e t => cases e <;> rfl

theorem turn_tail {m : Build} {net : Net} {d : Downloadable} {log0 new : List Ev} {s : DState} (h : Turning m d log0 new s) :
    (∃ s' new', execTail m net d s = .again s' ∧ Turns m d log0 new' s') ∨
    (∃ r p new', execTail m net d s = .done r p ∧ p.log = log0 ++ new' ∧ Turned m d new') := by
  unfold execTail
  by_cases hfull : s.buf.isFull
  · simp only [hfull, if_true]
    exact .inr ⟨_, _, new, rfl, h.log, h.turned⟩
  simp only [hfull, Bool.false_eq_true, if_false]
  by_cases hch : s.peer.choked
  · simp only [hch, if_true]
    exact .inr ⟨_, _, new, rfl, h.log, h.turned⟩
  simp only [hch, Bool.false_eq_true, if_false]
  by_cases hex : s.buf.isLenAsExpected
  · have hw : (written new).length = s.buf.buffer.length + 1 := by
      rw [← h.count]; simpa [MessageBuffer.isLenAsExpected] using hex
    have hreq : s.buf.requestNextMessage (ε := DownloadableError) m net d s.peer = (.ok s.buf, s.peer) := by
      unfold MessageBuffer.requestNextMessage; rw [hex, Bool.true_or, if_pos rfl]
    simp only [hreq]
    split
    · exact .inr ⟨_, _, new, rfl, h.log, h.turned⟩
    · refine .inl ⟨_, new, rfl, h.log, h.count, fun hu => ⟨(h.asked hu).1, .inl hw⟩, fun hu => ?_⟩
      rcases h.unasked hu with ⟨-, h2⟩ | ⟨j, h1, h2, h3, -⟩
      · omega
      · exact ⟨j, h1, h2, h3, .inl hw⟩
  · have hw : (written new).length ≠ s.buf.buffer.length + 1 := by
      rw [← h.count]; simpa [MessageBuffer.isLenAsExpected] using hex
    unfold MessageBuffer.requestNextMessage
    simp only [hex, hfull, Bool.or_self, Bool.false_eq_true, if_false]
    cases hr : (d.request m s.peer s.buf.buffer.length : Res DownloadableError Message) with
    | ok msg =>
      simp only []
      have hlog : (s.peer.sendMessage net msg).log = log0 ++ (new ++ [.sent msg.asBytes]) := by
        simp [Peer.sendMessage, Peer.write, h.log]
      have hA : unasked d new = false →
          InTurn m d 0 (written (new ++ [.sent msg.asBytes])) ∧ (written new).length = s.buf.buffer.length := by
        intro hu
        obtain ⟨h1, h2⟩ := h.asked hu
        have h2 : (written new).length = s.buf.buffer.length := by omega
        refine ⟨?_, h2⟩
        rw [written_sent]
        exact h1.snoc (by rw [if_neg (by omega), h2]; exact hr)
      have hU : unasked d new = true → ∃ j, 0 < j ∧ j ≤ (written (new ++ [.sent msg.asBytes])).length ∧
          InTurn m d j (written (new ++ [.sent msg.asBytes])) ∧
          ((written (new ++ [.sent msg.asBytes])).length = s.buf.buffer.length + 1 ∨
            (written (new ++ [.sent msg.asBytes])).length = s.buf.buffer.length ∧ j = (written (new ++ [.sent msg.asBytes])).length) := by
        intro hu
        have hlen : (written (new ++ [.sent msg.asBytes])).length = (written new).length + 1 := by rw [written_sent]; simp
        rcases h.unasked hu with ⟨h1, h2⟩ | ⟨j, h1, h2, h3, h4⟩
        · refine ⟨(written new).length + 1, Nat.succ_pos _, by omega, ?_, .inr ⟨by omega, by omega⟩⟩
          rw [written_sent]
          exact (h1.more (Nat.le_succ _)).snoc (by rw [if_pos (by omega), h2]; exact hr)
        · have h4 : (written new).length = s.buf.buffer.length := by omega
          refine ⟨j, h1, by omega, ?_, .inl (by omega)⟩
          rw [written_sent]
          exact h3.snoc (by rw [if_neg (by omega), h4]; exact hr)
      split
      · refine .inr ⟨_, _, _, rfl, hlog, ?_, ?_⟩
        · rw [unasked_sent]; exact fun hu => (hA hu).1
        · rw [unasked_sent]; exact fun hu => (hU hu).elim fun j hj => ⟨j, hj.1, hj.2.2.1⟩
      · refine .inl ⟨_, _, rfl, hlog, ?_, ?_, ?_⟩
        · rw [written_sent]; simp [h.count]
        · rw [unasked_sent]
          intro hu
          refine ⟨(hA hu).1, .inl ?_⟩
          rw [written_sent]; simp [(hA hu).2]
        · rw [unasked_sent]; exact hU
    | err e => exact .inr ⟨_, _, new, rfl, h.log, h.turned⟩
    | panic => exact .inr ⟨_, _, new, rfl, h.log, h.turned⟩
    | hang => exact .inr ⟨_, _, new, rfl, h.log, h.turned⟩

theorem Turns.turning {m : Build} {d : Downloadable} {log0 new : List Ev} {s : DState} (h : Turns m d log0 new s) :
    Turning m d log0 new s := by
  refine ⟨h.log, h.count, fun hu => ⟨(h.asked hu).1, ?_⟩, fun hu => ?_⟩
  · rcases (h.asked hu).2 with h1 | ⟨h1, h2⟩
    · exact .inl h1
    · exact .inr (by rw [h1, h2]; rfl)
  · obtain ⟨j, h1, h2, h3, h4⟩ := h.unasked hu
    exact .inr ⟨j, h1, h2, h3, h4.imp id And.left⟩

theorem turn_step {m : Build} {net : Net} {d : Downloadable} {log0 new : List Ev} {s : DState} (h : Turns m d log0 new s) :
    (∃ s' new', execStep m net d s = .again s' ∧ Turns m d log0 new' s') ∨
    (∃ r p new', execStep m net d s = .done r p ∧ p.log = log0 ++ new' ∧ Turned m d new') := by
  unfold execStep
  obtain ⟨c, r, hr, -, hcase⟩ := readMessage_cases (ε := DownloadableError) net s.peer
  rw [hr]
  rcases hcase with rfl | rfl | rfl | ⟨x, _, _, _, rfl, -, -⟩
  · exact turn_tail (new := new) ⟨h.log, h.count, h.turning.asked, h.turning.unasked⟩
  · exact .inr ⟨_, _, new, rfl, h.log, h.turned⟩
  · exact .inr ⟨_, _, new, rfl, h.log, h.turned⟩
  · simp only []
    have hlog : (({ s.peer with conn := c } : Peer).applyMessage x).log = log0 ++ (new ++ [.got x]) := by
      simp [Peer.applyMessage, h.log]
    by_cases hp : d.messageFilter x && !s.buf.isFull
    · have hf : d.messageFilter x = true := by
        simp only [Bool.and_eq_true] at hp; exact hp.1
      have hb : s.buf.pushMessage d x = { s.buf with buffer := s.buf.buffer ++ [x] } := by
        unfold MessageBuffer.pushMessage; rw [if_pos hp]
      refine turn_tail (new := new ++ [.got x]) ⟨hlog, ?_, ?_, ?_⟩
      · rw [hb, written_got]; exact h.count
      · intro hu
        by_cases hn : new = []
        · subst hn; simp only [List.nil_append, unasked] at hu; rw [hf] at hu; cases hu
        · rw [unasked_append _ _ _ hn] at hu
          rw [hb, written_got]
          refine ⟨(h.asked hu).1, .inr ?_⟩
          rcases (h.asked hu).2 with h1 | ⟨h1, -⟩
          · simp [h1]
          · exact absurd h1 hn
      · intro hu
        rw [hb, written_got]
        by_cases hn : new = []
        · subst hn
          have h0 : s.buf.buffer = [] := by
            rcases (h.asked rfl).2 with h1 | ⟨-, h1⟩
            · simp [written] at h1
            · exact h1
          refine .inl ⟨?_, by simp [written, h0]⟩
          intro k x hk; simp [written] at hk
        · rw [unasked_append _ _ _ hn] at hu
          obtain ⟨j, h1, h2, h3, h4⟩ := h.unasked hu
          rcases h4 with h4 | ⟨h4, h5⟩
          · exact .inr ⟨j, h1, h2, h3, .inr (by simp [h4])⟩
          · exact .inl ⟨h5 ▸ h3, by simp [h4]⟩
    · have hb : s.buf.pushMessage d x = s.buf := by
        unfold MessageBuffer.pushMessage; rw [if_neg hp]
      by_cases hfull : s.buf.isFull
      · -- full: the loop is left, nothing is written
        unfold execTail
        rw [hb]
        simp only [hfull, if_true]
        refine .inr ⟨_, _, _, rfl, hlog, ?_⟩
        rw [Turned, written_got]
        by_cases hn : new = []
        · subst hn
          refine ⟨fun _ k x hk => ?_, fun _ => ⟨1, Nat.one_pos, fun k x hk => ?_⟩⟩ <;> simp [written] at hk
        · rw [unasked_append _ _ _ hn]; exact h.turned
      · have hf : d.messageFilter x = false := by
          simpa [hfull] using hp
        have hu' : unasked d (new ++ [.got x]) = unasked d new := by
          cases new with
          | nil => simpa [unasked] using hf
          | cons e t => exact unasked_append _ _ _ (by simp)
        refine turn_tail (new := new ++ [.got x]) ⟨hlog, ?_, ?_, ?_⟩
        · rw [hb, written_got]; exact h.count
        · rw [hu', hb, written_got]; exact h.turning.asked
        · rw [hu', hb, written_got]; exact h.turning.unasked

theorem turn_run {m : Build} {net : Net} {d : Downloadable} {log0 : List Ev} (f : Nat) : ∀ {new : List Ev} {s : DState},
    Turns m d log0 new s →
    (∃ s' new', execRun m net d f s = .again s' ∧ Turns m d log0 new' s') ∨
    (∃ r p new', execRun m net d f s = .done r p ∧ p.log = log0 ++ new' ∧ Turned m d new') := by
  induction f with
  | zero => intro new s h; exact .inl ⟨s, new, rfl, h⟩
  | succ f ih =>
    intro new s h
    rw [execRun]
    rcases turn_step (net := net) h with ⟨s', new', h1, h2⟩ | ⟨r, p, new', h1, h2⟩
    · rw [h1]; exact ih h2
    · rw [h1]; exact .inr ⟨r, p, new', rfl, h2⟩

theorem execute_turned (m : Build) (net : Net) (d : Downloadable) (f cap : Nat) (p : Peer) :
    ∃ new, (execute m net d f p cap).2.log = p.log ++ new ∧ Turned m d new := by
  unfold execute
  have h0 : Turns m d p.log [] ⟨p, ⟨[], cap, 0⟩, 0⟩ :=
    ⟨by simp, rfl, fun _ => ⟨fun k x hk => by simp [written] at hk, .inr ⟨rfl, rfl⟩⟩, fun hu => by simp [unasked] at hu⟩
  rcases turn_run (net := net) f h0 with ⟨s', new, h1, h2⟩ | ⟨r, q, new, h1, h2, h3⟩
  · rw [h1]; exact ⟨new, h2.log, h2.turned⟩
  · rw [h1]; exact ⟨new, h2, h3⟩

/-- The order of requests, for pieces and for metadata. -/
theorem execute_order (m : Build) (net : Net) (d : Downloadable) (f cap : Nat) (p : Peer) :
    ∃ new, (execute m net d f p cap).2.log = p.log ++ new ∧
      ((∀ x t, new = .got x :: t → isAnswer d x = false) → ∀ (k : Nat) (x : Bytes), (written new)[k]? = some x → AskedFor m d k x) ∧
      ∀ x t, new = .got x :: t → isAnswer d x = true → ∃ j, 0 < j ∧
        ∀ (k : Nat) (y : Bytes), (written new)[k]? = some y → AskedFor m d (if k < j then k + 1 else k) y := by
  obtain ⟨new, hl, ht⟩ := execute_turned m net d f cap p
  obtain ⟨new', h⟩ := execute_history m net d f p cap
  have he : new' = new := List.append_cancel_left (h.log.symm.trans hl)
  subst he
  have hwire : ∀ x t, new' = .got x :: t → d.messageFilter x = isAnswer d x :=
    fun x t e => filter_eq_isAnswer _ (h.wire x (by rw [e]; simp))
  refine ⟨new', hl, fun hs k x hk => ?_, fun x t e hx => ?_⟩
  · have hu : unasked d new' = false := by
      cases hn : new' with
      | nil => rfl
      | cons e t =>
        cases e with
        | sent _ => rfl
        | got x => exact (hwire x t hn).trans (hs x t hn)
    have := ht.1 hu k x hk
    simpa using this
  · have hu : unasked d new' = true := by rw [← hx, ← hwire x t e, e]; rfl
    exact ht.2 hu

/-- **C33**, what happens for every peer: if the first thing it sends in a download is not a block, the `k`-th request is for block `k`. If it is, then block 0 is not
asked for: the requests are for the blocks 1, 2, ..., `j`, and then for `j`, `j + 1`, ... in order, so that one block is asked for twice and the others once. -/
theorem C33_exact (m : Build) (net : Net) (pl idx total f cap : Nat) (p : Peer) :
    ∃ new, (execute m net (.block pl idx total) f p cap).2.log = p.log ++ new ∧
      ((∀ x t, new = .got x :: t → isAnswer (.block pl idx total) x = false) →
        ∀ (k : Nat) (x : Bytes), (written new)[k]? = some x →
          ∃ msg, (blockRequest m pl idx total k : Res DownloadableError Message) = .ok msg ∧ x = msg.asBytes) ∧
      ∀ x t, new = .got x :: t → isAnswer (.block pl idx total) x = true → ∃ j, 0 < j ∧
        ∀ (k : Nat) (y : Bytes), (written new)[k]? = some y →
          ∃ msg, (blockRequest m pl idx total (if k < j then k + 1 else k) : Res DownloadableError Message) = .ok msg ∧ y = msg.asBytes := by
  obtain ⟨new, hl, h1, h2⟩ := execute_order m net (.block pl idx total) f cap p
  refine ⟨new, hl, fun hs k x hk => ?_, fun x t e hx => ?_⟩
  · obtain ⟨q, h⟩ := h1 hs k x hk
    exact h
  · obtain ⟨j, hj, h⟩ := h2 x t e hx
    refine ⟨j, hj, fun k y hk => ?_⟩
    obtain ⟨q, h⟩ := h k y hk
    exact h

/-- **C33** So, for a piece of the torrent of which something is asked, the requests are for the blocks 0, 1, 2, ... in order just if the peer does not begin with a block
that nobody asked for. -/
theorem C33_in_order_iff (m : Build) (net : Net) (pl idx total f cap : Nat) (p : Peer) (hin : idx * pl + 16384 ≤ total) (ht : total < 2 ^ 64) :
    ∃ new, (execute m net (.block pl idx total) f p cap).2.log = p.log ++ new ∧
      (written new ≠ [] →
        ((∀ (k : Nat) (x : Bytes), (written new)[k]? = some x →
            ∃ msg, (blockRequest m pl idx total k : Res DownloadableError Message) = .ok msg ∧ x = msg.asBytes) ↔
          ∀ x t, new = .got x :: t → isAnswer (.block pl idx total) x = false)) := by
  obtain ⟨new, hl, h1, h2⟩ := C33_exact m net pl idx total f cap p
  refine ⟨new, hl, fun hne => ⟨fun h x t e => ?_, h1⟩⟩
  cases ha : isAnswer (.block pl idx total) x with
  | false => rfl
  | true =>
    exfalso
    obtain ⟨j, hj, h3⟩ := h2 x t e ha
    cases hw : written new with
    | nil => exact hne hw
    | cons y ys =>
      have hy : (written new)[0]? = some y := by rw [hw]; rfl
      obtain ⟨a, ha1, ha2⟩ := h 0 y hy
      obtain ⟨b, hb1, hb2⟩ := h3 0 y hy
      rw [if_pos hj] at hb1
      rw [blockRequest_eq m pl idx total 0 (by omega) ht] at ha1
      rw [blockRequest_eq m pl idx total 1 (by omega) ht] at hb1
      injection ha1 with ha1
      injection hb1 with hb1
      rw [ha2, ← ha1, ← hb1] at hb2
      have := C22_wire_unambiguous _ _ _ _ _ _ _
        (C22_request_wire _ _ _ (Nat.mod_lt _ (by decide)) (Nat.mod_lt _ (by decide)) (Nat.mod_lt _ (by decide)))
        (hb2 ▸ C22_request_wire _ _ _ (Nat.mod_lt _ (by decide)) (Nat.mod_lt _ (by decide)) (Nat.mod_lt _ (by decide)))
      omega

/-- **C33** for metadata, for every peer: as for blocks (the id under which the peer wants to be asked may change in between). -/
theorem C33_exact_metadata (m : Build) (net : Net) (f cap : Nat) (p : Peer) :
    ∃ new, (execute m net .info f p cap).2.log = p.log ++ new ∧
      ((∀ x t, new = .got x :: t → isAnswer .info x = false) →
        ∀ (k : Nat) (x : Bytes), (written new)[k]? = some x →
          ∃ ext msg, (newMetadata ext k : Res DownloadableError Message) = .ok msg ∧ x = msg.asBytes) ∧
      ∀ x t, new = .got x :: t → isAnswer .info x = true → ∃ j, 0 < j ∧
        ∀ (k : Nat) (y : Bytes), (written new)[k]? = some y →
          ∃ ext msg, (newMetadata ext (if k < j then k + 1 else k) : Res DownloadableError Message) = .ok msg ∧ y = msg.asBytes := by
  have hask : ∀ k y, AskedFor m .info k y → ∃ ext msg, (newMetadata ext k : Res DownloadableError Message) = .ok msg ∧ y = msg.asBytes := by
    rintro k y ⟨q, msg, h1, h2⟩
    simp only [Downloadable.request] at h1
    split at h1
    · exact ⟨_, msg, h1, h2⟩
    · cases h1
  obtain ⟨new, hl, h1, h2⟩ := execute_order m net .info f cap p
  refine ⟨new, hl, fun hs k x hk => hask _ _ (h1 hs k x hk), fun x t e hx => ?_⟩
  obtain ⟨j, hj, h⟩ := h2 x t e hx
  exact ⟨j, hj, fun k y hk => hask _ _ (h k y hk)⟩

/-- **C33** So the metadata are asked for from the beginning and in order just if the peer does not begin with a part of them that nobody asked for. -/
theorem C33_in_order_iff_metadata (m : Build) (net : Net) (f cap : Nat) (p : Peer) :
    ∃ new, (execute m net .info f p cap).2.log = p.log ++ new ∧
      (written new ≠ [] →
        ((∀ (k : Nat) (x : Bytes), (written new)[k]? = some x →
            ∃ ext msg, (newMetadata ext k : Res DownloadableError Message) = .ok msg ∧ x = msg.asBytes) ↔
          ∀ x t, new = .got x :: t → isAnswer .info x = false)) := by
  obtain ⟨new, hl, h1, h2⟩ := C33_exact_metadata m net f cap p
  refine ⟨new, hl, fun hne => ⟨fun h x t e => ?_, h1⟩⟩
  cases ha : isAnswer .info x with
  | false => rfl
  | true =>
    exfalso
    obtain ⟨j, hj, h3⟩ := h2 x t e ha
    cases hw : written new with
    | nil => exact hne hw
    | cons y ys =>
      have hy : (written new)[0]? = some y := by rw [hw]; rfl
      obtain ⟨e1, a, ha1, ha2⟩ := h 0 y hy
      obtain ⟨e2, b, hb1, hb2⟩ := h3 0 y hy
      rw [if_pos hj] at hb1
      rw [newMetadata_eq _ _ (by decide)] at ha1 hb1
      injection ha1 with ha1
      injection hb1 with hb1
      rw [ha2, ← ha1, ← hb1] at hb2
      have hd := congrArg (List.drop 6) hb2
      have h0 : List.drop 6 (Message.asBytes ⟨20, (metadataRequestData 0).length + 2, .extension ⟨e1, some 0, none, [], some 0, []⟩⟩) =
          b!"d8:msg_typei0e5:piecei0ee" := rfl
      have h1 : List.drop 6 (Message.asBytes ⟨20, (metadataRequestData (0 + 1)).length + 2, .extension ⟨e2, some 0, none, [], some (0 + 1), []⟩⟩) =
          b!"d8:msg_typei0e5:piecei1ee" := rfl
      rw [h0, h1] at hd
      exact absurd hd (by decide)

/-- A peer that begins with two blocks which nobody asked for: the requests are for the blocks 1, 2, 2. -/
example : written (execute .release (script [blockMessage 0 0 [1], [], [], [], [], [], [], [], blockMessage 0 16384 [2]]) (.block 65536 0 65536) 5 readyPeer 4).2.log =
    [(newRequest 0 16384 16384).asBytes, (newRequest 0 32768 16384).asBytes, (newRequest 0 32768 16384).asBytes] := by decide +kernel

/-- A peer that begins with something else: the requests are for the blocks 0 and 1. -/
example : written (execute .release (script [[0, 0, 0, 1, 1], [], [], [], [], [], [], blockMessage 0 0 [2]]) (.block 65536 0 65536) 5 readyPeer 4).2.log =
    [(newRequest 0 0 16384).asBytes, (newRequest 0 16384 16384).asBytes] := by decide +kernel

/-- A peer that begins with a part of the metadata which nobody asked for: the requests are for the parts 1, 2 and 2; and one that does not. -/
example : written (execute .release (script [[0, 0, 0, 28, 20, 1] ++ b!"d8:msg_typei1e5:piecei0ee" ++ [7], [], [], [], [], [], [], [], [0, 0, 0, 28, 20, 1] ++ b!"d8:msg_typei1e5:piecei1ee" ++ [8]])
      .info 3 readyPeer 3).2.log =
    [[0, 0, 0, 27, 20, 3] ++ b!"d8:msg_typei0e5:piecei1ee", [0, 0, 0, 27, 20, 3] ++ b!"d8:msg_typei0e5:piecei2ee", [0, 0, 0, 27, 20, 3] ++ b!"d8:msg_typei0e5:piecei2ee"] ∧
    written (execute .release (script [[0, 0, 0, 1, 1]]) .info 2 readyPeer 3).2.log =
    [[0, 0, 0, 27, 20, 3] ++ b!"d8:msg_typei0e5:piecei0ee"] := by decide +kernel

end RustBit
