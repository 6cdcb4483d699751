/-
Property C114: one block per round trip.
-/
import Verif.Model.Pace
import Verif.Spec.Pace
import Verif.Props.Transfer
import Verif.Proofs.Crash

namespace RustBit
open Spec

/-! ### The history with times -/

theorem drop_of_logs {a b c x y : List Ev} (hx : x = a ++ b) (hy : y = a ++ c) (h : b <+: c) : x ++ y.drop x.length = y := by
  obtain ⟨t, rfl⟩ := h
  subst hx hy
  rw [← List.append_assoc, List.drop_left]

theorem history_log (m : Build) (net : Net) (w : Waits) (d : Downloadable) {cap : Nat} {c0 : Bool} {log0 : List Ev} : ∀ (f now : Nat)
    {new : List Ev} {s : DState}, LoopInv m d cap c0 log0 new s →
    s.peer.log ++ (execRunHistory m net w d f now s).map Prod.snd =
      (match execRun m net d f s with | .again s' => s'.peer.log | .done _ p => p.log) := by
  intro f
  induction f with
  | zero => intro now new s _; simp [execRunHistory, execRun]
  | succ f ih =>
    intro now new s h
    rw [execRunHistory, execRun]
    rcases flow_step (net := net) h with ⟨s', new', h1, h2, h3⟩ | ⟨r, p, new', h1, h2, h3⟩
    · rw [h1]
      simp only []
      rw [← ih (now + readStreamTime net w s.peer.conn) h2, List.map_append, List.map_map, ← List.append_assoc]
      congr 1
      have : (Prod.snd ∘ fun x : Ev => (now + readStreamTime net w s.peer.conn, x)) = id := rfl
      rw [this, List.map_id]
      exact drop_of_logs h.log h2.log h3
    · rw [h1]
      simp only [List.map_map]
      have : (Prod.snd ∘ fun x : Ev => (now + readStreamTime net w s.peer.conn, x)) = id := rfl
      rw [this, List.map_id]
      exact drop_of_logs h.log h2.log h3

theorem history_times (m : Build) (net : Net) (w : Waits) (d : Downloadable) : ∀ (f now : Nat) (s : DState),
    (execRunHistory m net w d f now s).Pairwise (fun a b => a.1 ≤ b.1) ∧
    ∀ e ∈ execRunHistory m net w d f now s, now ≤ e.1 ∧ e.1 ≤ now + execRunTime m net w d f s := by
  intro f
  induction f with
  | zero => intro now s; simp [execRunHistory]
  | succ f ih =>
    intro now s
    rw [execRunHistory, execRunTime]
    have hc : ∀ (t : Nat) (l : List Ev), (l.map (t, ·)).Pairwise (fun a b => a.1 ≤ b.1) := by
      intro t l
      rw [List.pairwise_map]
      exact List.pairwise_of_forall (fun _ _ => Nat.le_refl _)
    cases hx : execStep m net d s with
    | again s' =>
      simp only []
      obtain ⟨h1, h2⟩ := ih (now + readStreamTime net w s.peer.conn) s'
      constructor
      · rw [List.pairwise_append]
        refine ⟨hc _ _, h1, ?_⟩
        intro a ha b hb
        simp only [List.mem_map] at ha
        obtain ⟨x, -, rfl⟩ := ha
        exact (h2 b hb).1
      · intro e he
        rw [List.mem_append] at he
        rcases he with he | he
        · simp only [List.mem_map] at he
          obtain ⟨x, -, rfl⟩ := he
          simp only []; omega
        · have := h2 e he
          omega
    | done r p =>
      simp only []
      refine ⟨hc _ _, ?_⟩
      intro e he
      simp only [List.mem_map] at he
      obtain ⟨x, -, rfl⟩ := he
      simp only []; omega

/-- C114: the history with times is the history of the run, its times do not decrease, and none is later than the end. -/
theorem C114_history (m : Build) (net : Net) (w : Waits) (d : Downloadable) (f : Nat) (p : Peer) (cap : Nat) :
    let h := execRunHistory m net w d f 0 ⟨p, ⟨[], cap, 0⟩, 0⟩
    (execute m net d f p cap).2.log = p.log ++ h.map Prod.snd ∧ h.Pairwise (fun a b => a.1 ≤ b.1) ∧
    ∀ e ∈ h, e.1 ≤ execRunTime m net w d f ⟨p, ⟨[], cap, 0⟩, 0⟩ := by
  intro h
  obtain ⟨h1, h2⟩ := history_times m net w d f 0 ⟨p, ⟨[], cap, 0⟩, 0⟩
  refine ⟨?_, h1, fun e he => by have := (h2 e he).2; omega⟩
  have := history_log m net w d f 0 (loopInv_init m d cap p)
  rw [show p.log = (⟨p, ⟨[], cap, 0⟩, 0⟩ : DState).peer.log from rfl, this]
  unfold execute
  cases execRun m net d f ⟨p, ⟨[], cap, 0⟩, 0⟩ <;> rfl

/-! ### One request at a time -/

theorem requestTimes_length (h : List (Nat × Ev)) : (requestTimes h).length = (written (h.map Prod.snd)).length := by
  induction h with
  | nil => rfl
  | cons e t ih =>
    obtain ⟨n, e⟩ := e
    cases e <;> simpa [requestTimes, written] using ih

theorem answerTimes_length (d : Downloadable) (h : List (Nat × Ev)) :
    (answerTimes d h).length = (received (isAnswer d) (h.map Prod.snd)).length := by
  induction h with
  | nil => rfl
  | cons e t ih =>
    obtain ⟨n, e⟩ := e
    cases e with
    | sent b => simpa [answerTimes, received] using ih
    | got x => cases hx : isAnswer d x <;> simpa [answerTimes, received, hx] using ih

theorem answerTimes_mem {d : Downloadable} {h : List (Nat × Ev)} {a : Nat} (ha : a ∈ answerTimes d h) : ∃ e, (a, e) ∈ h := by
  unfold answerTimes at ha
  rw [List.mem_filterMap] at ha
  obtain ⟨⟨n, e⟩, he, hx⟩ := ha
  cases e with
  | sent b => simp at hx
  | got x => simp at hx; exact ⟨_, hx.2 ▸ he⟩

theorem requestTimes_split {h : List (Nat × Ev)} {k q : Nat} (hk : (requestTimes h)[k]? = some q) :
    ∃ pre x post, h = pre ++ (q, .sent x) :: post ∧ (requestTimes pre).length = k := by
  induction h generalizing k with
  | nil => simp [requestTimes] at hk
  | cons e t ih =>
    obtain ⟨n, e⟩ := e
    cases e with
    | got y =>
      obtain ⟨pre, x, post, h1, h2⟩ := ih (k := k) (by simpa [requestTimes] using hk)
      exact ⟨(n, .got y) :: pre, x, post, by simp [h1], by simpa [requestTimes] using h2⟩
    | sent y =>
      cases k with
      | zero =>
        have : n = q := by simpa [requestTimes] using hk
        subst this
        exact ⟨[], y, t, rfl, rfl⟩
      | succ k =>
        obtain ⟨pre, x, post, h1, h2⟩ := ih (k := k) (by simpa [requestTimes] using hk)
        exact ⟨(n, .sent y) :: pre, x, post, by simp [h1], by simpa [requestTimes] using h2⟩

/-- Requests and answers take turns: request `k` is written after `k` answers, each `δ` after its request. -/
theorem turns {d : Downloadable} {h : List (Nat × Ev)} {δ : Nat} (hs : h.Pairwise (fun a b => a.1 ≤ b.1))
    (hw : EachWrite (fun pre _ => (written pre).length ≤ (received (isAnswer d) pre).length) (h.map Prod.snd))
    (hl : Latency δ d h) : ∀ k : Nat, (∀ q, (requestTimes h)[k]? = some q → k * δ ≤ q) ∧
      (∀ a, (answerTimes d h)[k]? = some a → (k + 1) * δ ≤ a) := by
  intro k
  induction k with
  | zero =>
    refine ⟨fun q _ => by omega, fun a ha => ?_⟩
    obtain ⟨q, -, h2⟩ := hl 0 a ha
    omega
  | succ k ih =>
    have hr : ∀ q, (requestTimes h)[k + 1]? = some q → (k + 1) * δ ≤ q := by
      intro q hq
      obtain ⟨pre, x, post, he, hk⟩ := requestTimes_split hq
      have h1 := hw (pre.map Prod.snd) x (post.map Prod.snd) (by rw [he]; simp)
      simp only [← requestTimes_length, ← answerTimes_length, hk] at h1
      have h2 : (answerTimes d pre)[k]? = some ((answerTimes d pre)[k]'(by omega)) := List.getElem?_eq_getElem (by omega)
      have h3 : (answerTimes d h)[k]? = some ((answerTimes d pre)[k]'(by omega)) := by
        rw [he]
        unfold answerTimes at h2 ⊢
        rw [List.filterMap_append, List.getElem?_append_left (by show k < (answerTimes d pre).length; omega)]
        exact h2
      have h4 := ih.2 _ h3
      obtain ⟨e, hm⟩ := answerTimes_mem (List.getElem_mem (l := answerTimes d pre) (n := k) (by omega))
      rw [he, List.pairwise_append] at hs
      have := hs.2.2 _ hm (q, .sent x) (by simp)
      simp only [] at this
      omega
    refine ⟨hr, fun a ha => ?_⟩
    obtain ⟨q, h1, h2⟩ := hl (k + 1) a ha
    have := hr q h1
    have e : (k + 1 + 1) * δ = (k + 1) * δ + δ := by rw [Nat.succ_mul]
    omega

theorem one_at_a_time (m : Build) (net : Net) (d : Downloadable) (f : Nat) (p : Peer) (cap : Nat) :
    ∃ new, (execute m net d f p cap).2.log = p.log ++ new ∧
      EachWrite (fun pre _ => (written pre).length ≤ (received (isAnswer d) pre).length) new ∧
      ∀ b, (execute m net d f p cap).1 = .ok b → cap ≤ (received (isAnswer d) new).length := by
  obtain ⟨new, h⟩ := execute_history m net d f p cap
  refine ⟨new, h.log, eachWrite_imp h.writes ?_, ?_⟩
  · intro pre x post e hq
    have hw : received (Downloadable.messageFilter d) pre = received (isAnswer d) pre :=
      received_congr (fun m' hm => filter_eq_isAnswer _ (h.wire m' (by rw [e]; simp [hm])))
    obtain ⟨-, h2, -⟩ := hq
    rw [hw] at h2
    exact h2
  · intro b hb
    have hw : received (Downloadable.messageFilter d) new = received (isAnswer d) new :=
      received_congr (fun m' hm => filter_eq_isAnswer _ (h.wire m' hm))
    rw [← hw]
    exact (h.ok b hb).1

/-- C114: however fast the network is, a peer whose answers take `δ` ms each yields at most one answer per `δ` ms: the k-th answer
(counting from 0) is there after `(k + 1) * δ` ms at the earliest, whatever the outcome. -/
theorem C114_answers (m : Build) (net : Net) (w : Waits) (d : Downloadable) (f : Nat) (p : Peer) (cap δ : Nat)
    (hl : Latency δ d (execRunHistory m net w d f 0 ⟨p, ⟨[], cap, 0⟩, 0⟩)) :
    (∀ k a, (answerTimes d (execRunHistory m net w d f 0 ⟨p, ⟨[], cap, 0⟩, 0⟩))[k]? = some a → (k + 1) * δ ≤ a) ∧
    (answerTimes d (execRunHistory m net w d f 0 ⟨p, ⟨[], cap, 0⟩, 0⟩)).length * δ ≤ execRunTime m net w d f ⟨p, ⟨[], cap, 0⟩, 0⟩ := by
  obtain ⟨h1, h2, h3⟩ := C114_history m net w d f p cap
  obtain ⟨new, h4, h5, -⟩ := one_at_a_time m net d f p cap
  rw [h1] at h4
  have e := List.append_cancel_left h4
  rw [← e] at h5
  have ht := turns h2 h5 hl
  refine ⟨fun k a ha => (ht k).2 a ha, ?_⟩
  cases hn : (answerTimes d (execRunHistory m net w d f 0 ⟨p, ⟨[], cap, 0⟩, 0⟩)).length with
  | zero => omega
  | succ n =>
    have hg := List.getElem?_eq_getElem (l := answerTimes d (execRunHistory m net w d f 0 ⟨p, ⟨[], cap, 0⟩, 0⟩)) (i := n) (by omega)
    have h6 := (ht n).2 _ hg
    obtain ⟨x, hm⟩ := answerTimes_mem (List.getElem_mem (l := answerTimes d (execRunHistory m net w d f 0 ⟨p, ⟨[], cap, 0⟩, 0⟩)) (n := n) (by omega))
    have := h3 _ hm
    simp only [] at this
    omega

/-- C114: so a download of `cap` blocks takes at least `cap * δ` ms. -/
theorem C114_time (m : Build) (net : Net) (w : Waits) (d : Downloadable) (f : Nat) (p : Peer) (cap δ : Nat) (r : Bytes)
    (hr : (execute m net d f p cap).1 = .ok r) (hl : Latency δ d (execRunHistory m net w d f 0 ⟨p, ⟨[], cap, 0⟩, 0⟩)) :
    cap * δ ≤ execRunTime m net w d f ⟨p, ⟨[], cap, 0⟩, 0⟩ := by
  obtain ⟨h1, -, -⟩ := C114_history m net w d f p cap
  obtain ⟨new, h4, -, h6⟩ := one_at_a_time m net d f p cap
  rw [h1] at h4
  have e := List.append_cancel_left h4
  have h7 := h6 r hr
  rw [← e, ← answerTimes_length] at h7
  exact Nat.le_trans (Nat.mul_le_mul_right δ h7) (C114_answers m net w d f p cap δ hl).2

/-- C114: the same for a whole attempt, connecting and opening included. -/
theorem C114_attempt (m : Build) (net : Net) (w0 : Nat) (w : Waits) (d : Downloadable) (f : Nat) (p q : Peer) (cap δ : Nat) (r : Bytes)
    (hq : initPeer net p = (.ok (), q)) (hcap : (d.capacity m q : Res DownloadableError Nat) = .ok cap)
    (hr : (d.download m net f q).1 = .ok r) (hl : Latency δ d (execRunHistory m net w d f 0 ⟨q, ⟨[], cap, 0⟩, 0⟩)) :
    cap * δ ≤ attemptTime m net w0 w d f p := by
  have h := C114_time m net w d f q cap δ r (by unfold Downloadable.download at hr; rw [hcap] at hr; exact hr) hl
  unfold attemptTime
  simp only [hq, hcap]
  omega

/-- A peer that answers two requests in turn, 50 ms after each; the first poll waits for 100 ms. -/
def twoAnswers : Net := script [[], [], [], [], blockMessage 0 0 [1], [], [], [], [], [], [], [], blockMessage 0 16384 [2]]

def fiftyEach : Waits := fun t => if t = 1 then 100 else 50

/-- Non-vacuity: the requests are written after 100 and 150 ms, the answers are there after 150 and 200 ms. -/
theorem twoAnswers_times : requestTimes (execRunHistory .release twoAnswers fiftyEach (.block 32768 0 32768) 9 0 ⟨readyPeer, ⟨[], 2, 0⟩, 0⟩) = [100, 150] ∧
    answerTimes (.block 32768 0 32768) (execRunHistory .release twoAnswers fiftyEach (.block 32768 0 32768) 9 0 ⟨readyPeer, ⟨[], 2, 0⟩, 0⟩) = [150, 200] := by
  decide +kernel

example : (execute .release twoAnswers (.block 32768 0 32768) 9 readyPeer 2).1 = .ok [1, 2] ∧
    Latency 50 (.block 32768 0 32768) (execRunHistory .release twoAnswers fiftyEach (.block 32768 0 32768) 9 0 ⟨readyPeer, ⟨[], 2, 0⟩, 0⟩) := by
  refine ⟨by decide +kernel, ?_⟩
  intro k a h
  rw [twoAnswers_times.2] at h
  rw [twoAnswers_times.1]
  match k, h with
  | 0, h => simp at h; exact ⟨100, rfl, by omega⟩
  | 1, h => simp at h; exact ⟨150, rfl, by omega⟩

/-! ### The bound is attained, but for the first poll -/

theorem wait_zero {w : Waits} {c : Conn} (h : c.buf ≠ []) : c.wait w = 0 := if_neg h

theorem framed_time {net : Net} {w : Waits} {c : Conn} {len : Bytes} {id : UInt8} {body rest : Bytes}
    (hl : IsU32 (body.length + 1) len) (hne : body ≠ []) (h : c.buf = len ++ id :: body ++ rest)
    (hf : NoFailure net c.t 4) : readFramedTime net w c = 0 := by
  have hl4 : len.length = 4 := hl.1
  have hlne : len ≠ [] := by intro e; simp [e] at hl4
  have h0 : (net c.t).kind ≠ .fail := hf 0 (by omega)
  have h1 : (net (c.t + 1)).kind ≠ .fail := hf 1 (by omega)
  have h2 : (net (c.t + 1 + 1)).kind ≠ .fail := hf 2 (by omega)
  have e0 : c.buf ++ (net c.t).arrive = len ++ (id :: body ++ rest ++ (net c.t).arrive) := by
    simp [h]
  rw [readFramedTime, wait_zero (by simp [h]), read_ok h0 (by rw [e0]; simp [hlne]), e0, List.take_left' hl4, List.drop_left' hl4]
  simp only [padTo_of_length hl4]
  rw [wait_zero (by simp), read_ok (by exact h1) (by simp)]
  have hv : ofBe len = body.length + 1 := by rw [ofBe_eq_beValue]; exact hl.2
  rw [hv]
  simp only [List.cons_append, List.drop_succ_cons, List.drop_zero, Nat.add_eq_zero_iff, Nat.one_ne_zero, and_false, if_false, Nat.add_sub_cancel]
  generalize hc : (⟨body ++ rest ++ (net c.t).arrive ++ (net (c.t + 1)).arrive, c.t + 1 + 1⟩ : Conn) = c2
  have hb : c2.buf = body ++ (rest ++ (net c.t).arrive ++ (net (c.t + 1)).arrive) := by rw [← hc]; simp
  have ht : c2.t = c.t + 1 + 1 := by rw [← hc]
  rw [bodyLoopTime, peekAndRead_ok hb hne (by
    intro i hi
    rw [ht]
    have := hf (2 + i) (by omega)
    simpa [Nat.add_assoc, Nat.add_left_comm] using this)]
  simp only [peekAndReadTime]
  rw [wait_zero (by simp [hb, hne]), peek_ok (by rw [ht]; exact h2) (by simp [hb, hne])]
  simp only []
  rw [wait_zero (c := c2.advance net) (by simp [Conn.advance, hb, hne])]
  simp

/-- A message that is there as a whole once the loop has waited for its first bytes takes that wait and no more. -/
theorem frame_time {net : Net} {w : Waits} {c : Conn} {id : UInt8} {body frame rest : Bytes} (hfr : IsFrame id body frame)
    (h13 : frame.head? ≠ some 0x13) (hne : body ≠ []) (h : (c.after net 2).buf = frame ++ rest) (hf : NoFailure net c.t 7) :
    readStreamTime net w c = (c.advance net).wait w := by
  obtain ⟨len, hl, rfl⟩ := hfr
  have hl4 : len.length = 4 := hl.1
  have hlne : len ≠ [] := by intro e; simp [e] at hl4
  rw [readStreamTime, setReadTimeout_ok (hf 0 (by omega))]
  simp only []
  have e1 : (c.advance net).buf ++ (net (c.advance net).t).arrive = len ++ id :: body ++ rest := by
    rw [← h]; simp [Conn.advance, Conn.after, arrivals]
  have h2 : (c.advance net).advance net = ⟨len ++ id :: body ++ rest, c.t + 2⟩ := by
    rw [← h, advance_eq_after, advance_eq_after, after_after]; rfl
  rw [hasMessages_ok (hf 1 (by omega)) (by rw [e1]; simp [hlne])]
  simp only [h2]
  rw [peek_ok (hf 2 (by omega)) (by simp [hlne])]
  simp only []
  have hh : (List.take 68 (len ++ id :: body ++ rest ++ (net (c.t + 2)).arrive)).head? ≠ some 0x13 := by
    cases len with
    | nil => exact absurd rfl hlne
    | cons a t => simpa using h13
  rw [if_neg (fun x => hh x.2), wait_zero (c := ⟨len ++ id :: body ++ rest, c.t + 2⟩) (by simp)]
  rw [framed_time (id := id) (rest := rest ++ (net (c.t + 2)).arrive) hl hne (by simp [Conn.advance]) (by
    intro i hi
    have := hf (3 + i) (by omega)
    simpa [Conn.advance, Nat.add_assoc, Nat.add_left_comm] using this)]
  simp

/-- The same for a handshake. -/
theorem handshake_time {net : Net} {w : Waits} {c : Conn} {hs rest : Bytes} (hl : hs.length = 68) (h13 : hs.head? = some 0x13)
    (h : (c.after net 2).buf = hs ++ rest) (hf : NoFailure net c.t 4) : readStreamTime net w c = (c.advance net).wait w := by
  have hne : hs ≠ [] := by intro e; simp [e] at hl
  rw [readStreamTime, setReadTimeout_ok (hf 0 (by omega))]
  simp only []
  have e1 : (c.advance net).buf ++ (net (c.advance net).t).arrive = hs ++ rest := by
    rw [← h]; simp [Conn.advance, Conn.after, arrivals]
  have h2 : (c.advance net).advance net = ⟨hs ++ rest, c.t + 2⟩ := by
    rw [← h, advance_eq_after, advance_eq_after, after_after]; rfl
  rw [hasMessages_ok (hf 1 (by omega)) (by rw [e1]; simp [hne])]
  simp only [h2]
  generalize (c.advance net).wait w = v
  rw [peek_ok (hf 2 (by omega)) (by simp [hne])]
  simp only []
  have ht : List.take 68 (hs ++ rest ++ (net (c.t + 2)).arrive) = hs := by
    rw [List.append_assoc, List.take_left' hl]
  rw [ht, if_pos ⟨hl, h13⟩, wait_zero (c := ⟨hs ++ rest, c.t + 2⟩) (by simp [hne]),
    wait_zero (c := Conn.advance net ⟨hs ++ rest, c.t + 2⟩) (by simp [Conn.advance, hne])]
  simp

/-- And for a keep-alive with the byte after it, which is taken too (C29). -/
theorem keepalive_time {net : Net} {w : Waits} {c : Conn} {b : UInt8} {rest : Bytes} (h : (c.after net 2).buf = [0, 0, 0, 0] ++ b :: rest)
    (hf : NoFailure net c.t 5) : readStreamTime net w c = (c.advance net).wait w := by
  rw [readStreamTime, setReadTimeout_ok (hf 0 (by omega))]
  simp only []
  have e1 : (c.advance net).buf ++ (net (c.advance net).t).arrive = [0, 0, 0, 0] ++ b :: rest := by
    rw [← h]; simp [Conn.advance, Conn.after, arrivals]
  have h2 : (c.advance net).advance net = ⟨[0, 0, 0, 0] ++ b :: rest, c.t + 2⟩ := by
    rw [← h, advance_eq_after, advance_eq_after, after_after]; rfl
  rw [hasMessages_ok (hf 1 (by omega)) (by rw [e1]; simp)]
  simp only [h2]
  generalize (c.advance net).wait w = v
  rw [peek_ok (hf 2 (by omega)) (by simp)]
  simp only []
  rw [if_neg (by simp), wait_zero (c := ⟨[0, 0, 0, 0] ++ b :: rest, c.t + 2⟩) (by simp)]
  have h3 : (net (c.t + 2 + 1)).kind ≠ .fail := hf 3 (by omega)
  have h4 : (net (c.t + 2 + 1 + 1)).kind ≠ .fail := hf 4 (by omega)
  have ha : Conn.advance net ⟨[0, 0, 0, 0] ++ b :: rest, c.t + 2⟩ = ⟨0 :: 0 :: 0 :: 0 :: b :: (rest ++ (net (c.t + 2)).arrive), c.t + 2 + 1⟩ := by
    simp [Conn.advance]
  rw [ha, readFramedTime, wait_zero (by simp), read_ok h3 (by simp)]
  simp only []
  rw [wait_zero (by simp), read_ok h4 (by simp)]
  simp only []
  rw [if_pos (by rfl)]
  simp

/-- C114: a message that has arrived when the loop first finds bytes costs the wait for the first bytes and nothing else: a message with a body, a handshake, and a
keep-alive together with the byte after it. -/
theorem C114_read (net : Net) (w : Waits) (c : Conn) (hf : NoFailure net c.t 7) (rest : Bytes) :
    (∀ id body frame, IsFrame id body frame → body ≠ [] → frame.head? ≠ some 0x13 → (c.after net 2).buf = frame ++ rest →
      readStreamTime net w c = (c.advance net).wait w) ∧
    (∀ hs : Bytes, hs.length = 68 → hs.head? = some 0x13 → (c.after net 2).buf = hs ++ rest → readStreamTime net w c = (c.advance net).wait w) ∧
    (∀ b, (c.after net 2).buf = [0, 0, 0, 0] ++ b :: rest → readStreamTime net w c = (c.advance net).wait w) :=
  ⟨fun _ _ _ h1 h2 h3 h4 => frame_time h1 h3 h2 h4 hf,
    fun _ h1 h2 h3 => handshake_time h1 h2 h3 (fun i hi => hf i (by omega)),
    fun _ h1 => keepalive_time h1 (fun i hi => hf i (by omega))⟩

/-- Non-vacuity: a block, a handshake and a keep-alive arriving 50 ms after the poll begins. -/
example : readStreamTime (script [[], blockMessage 0 0 [1]]) (fun _ => 50) ⟨[], 0⟩ = 50 ∧
    readStreamTime (script [[], sampleHandshake (List.replicate 20 7)]) (fun _ => 50) ⟨[], 0⟩ = 50 ∧
    readStreamTime (script [[], [0, 0, 0, 0, 0]]) (fun _ => 50) ⟨[], 0⟩ = 50 := by decide +kernel

/-- A poll that finds nothing. -/
theorem empty_time {net : Net} {w : Waits} {c : Conn} (hb : (c.after net 2).buf = []) (h0 : (net c.t).kind = .up) (h1 : (net (c.t + 1)).kind = .up) :
    readStreamTime net w c = min (w (c.t + 1)) 100 ∧ readStream net c = (none, ⟨[], c.t + 2⟩) := by
  have e : c.buf = [] ∧ (net c.t).arrive = [] ∧ (net (c.t + 1)).arrive = [] := by
    simpa [Conn.after, arrivals] using hb
  obtain ⟨b, t⟩ := c
  simp only at e h0 h1
  obtain ⟨rfl, e1, e2⟩ := e
  simp [readStreamTime, readStream, Conn.setReadTimeout, hasMessages, Conn.peek, Conn.advance, h0, h1, e1, e2, Conn.wait]

/-- What the waits of a peer in step add up to, from message `k` on for `n` messages. -/
def stepWaits (w : Waits) (t k n : Nat) : Nat := ((List.range n).map (fun j => min (w (t + 4 + 8 * (k + j))) 100)).sum

theorem stepWaits_succ (w : Waits) (t k n : Nat) : stepWaits w t k (n + 1) = min (w (t + 4 + 8 * k)) 100 + stepWaits w t (k + 1) n := by
  unfold stepWaits
  rw [List.range_succ_eq_map]
  simp only [List.map_cons, List.map_map, List.sum_cons, Nat.add_zero]
  congr 3
  funext j
  simp only [Function.comp, Nat.succ_eq_add_one]
  rw [show k + 1 + j = k + (j + 1) by omega]

theorem block_answer (pl idx total : Nat) (piece : Bytes) (i : Nat) : ∃ msg, Handled (blockMsg idx piece i) msg ∧ msg.id = 7 ∧
    Downloadable.messageFilter (.block pl idx total) msg = true ∧ msg.contentData = blockOf piece i := by
  obtain ⟨msg, hm⟩ := blockMsg_handled idx piece i
  have h := answers_blocks pl idx total [blockMsg idx piece i] (by
    intro x hx
    rw [List.mem_singleton] at hx
    exact ⟨msg, hx ▸ hm⟩)
  rw [answersOf_single _ (toMsg_handled hm)] at h
  have hf : List.filter isBlockMsg [blockMsg idx piece i] = [blockMsg idx piece i] := rfl
  rw [hf] at h
  refine ⟨msg, hm, (newRaw_id hm.2).1, ?_⟩
  cases hc : Downloadable.messageFilter (.block pl idx total) msg with
  | false => rw [hc] at h; simp at h
  | true =>
    rw [hc] at h
    simp only [if_true, List.map_cons, List.map_nil, List.cons.injEq, and_true] at h
    exact ⟨rfl, by rw [h]; simp [blockMsg, u32]⟩

theorem applyMessage_unchoked (p : Peer) (msg : Message) (h : p.choked = false) (h7 : msg.id = 7) : (p.applyMessage msg).choked = false := by
  simp only [Peer.applyMessage]
  rw [applyState_choked, h7, if_neg (by decide), if_neg (by decide)]
  exact h

theorem lockstep_read {net : Net} {idx t : Nat} {piece : Bytes} (hnet : Lockstep net t (blockMsg idx piece)) (k : Nat) {msg : Message}
    (hm : Handled (blockMsg idx piece k) msg) (p : Peer) (hc : p.conn = ⟨[], t + 3 + 8 * k⟩) (w : Waits) :
    (p.readMessage net : Res DownloadableError (Option Message) × Peer) = (.ok (some msg), { p with conn := ⟨[], t + 3 + 8 * k + 7⟩ }) ∧
    readStreamTime net w p.conn = min (w (t + 4 + 8 * k)) 100 := by
  obtain ⟨hup, hk, hz⟩ := hnet
  have hfr := wire_frame hm.1
  have hf : NoFailure net (⟨[], t + 3 + 8 * k⟩ : Conn).t 7 := by
    intro i _
    simp only []
    rw [hup _ (by omega)]
    simp
  have z : ∀ i, i < 7 → i ≠ 1 → (net (t + 3 + 8 * k + i)).arrive = [] := fun i hi h1 => hz _ (by omega) (fun k' => by omega)
  have one : (net (t + 3 + 8 * k + 1)).arrive = wire (blockMsg idx piece k) := by
    rw [show t + 3 + 8 * k + 1 = t + 4 + 8 * k by omega]
    exact hk k
  have hb : (Conn.after net ⟨[], t + 3 + 8 * k⟩ 2).buf = wire (blockMsg idx piece k) ++ [] := by
    have := z 0 (by omega) (by omega)
    simp only [Nat.add_zero] at this
    simp [Conn.after, arrivals, this, one]
  have hne : (blockMsg idx piece k).2 ≠ [] := by simp [blockMsg, u32]
  have hr := readStream_frame₂ hfr.1 hfr.2 hb hf
  have ha : arrivals net (t + 3 + 8 * k + 2) 5 = [] := by
    have a2 := z 2 (by omega) (by omega)
    have a3 := z 3 (by omega) (by omega)
    have a4 := z 4 (by omega) (by omega)
    have a5 := z 5 (by omega) (by omega)
    have a6 := z 6 (by omega) (by omega)
    simp only [arrivals, Nat.add_assoc, Nat.reduceAdd, List.append_eq_nil_iff] at *
    exact ⟨a2, a3, a4, a5, a6, trivial⟩
  rw [ha] at hr
  constructor
  · unfold Peer.readMessage
    rw [hc, hr]
    simp only [hm.2]
    rfl
  · rw [hc, frame_time hfr.1 hfr.2 hne hb hf]
    have := z 0 (by omega) (by omega)
    simp only [Nat.add_zero] at this
    simp only [Conn.wait, Conn.advance, this]
    rw [show t + 3 + 8 * k + 1 = t + 4 + 8 * k by omega]
    rfl

theorem lockstep_run {m : Build} {net : Net} {w : Waits} {pl idx total B t : Nat} {piece : Bytes} (hnet : Lockstep net t (blockMsg idx piece))
    (hreq : ∀ i, i < B → ∃ msg, (blockRequest m pl idx total i : Res DownloadableError Message) = .ok msg) : ∀ (n k f : Nat) (s : DState), k + (n + 1) = B → n < f →
    s.peer.conn = ⟨[], t + 3 + 8 * k⟩ → s.peer.choked = false → s.buf.capacity = B → s.buf.expectedSize = k + 1 → s.buf.buffer.length = k →
    s.buf.assembleContent = ((List.range k).map (blockOf piece)).flatten →
    (∃ p, execRun m net (.block pl idx total) f s = .done (.ok ((List.range B).map (blockOf piece)).flatten) p) ∧
    execRunTime m net w (.block pl idx total) f s = stepWaits w t k (n + 1) := by
  intro n
  induction n with
  | zero =>
    intro k f s hk hf hc hck hcap hexp hlen hbuf
    obtain ⟨f, rfl⟩ : ∃ g, f = g + 1 := ⟨f - 1, by omega⟩
    obtain ⟨msg, hm, h7, hfil, hdata⟩ := block_answer pl idx total piece k
    obtain ⟨hr, ht⟩ := lockstep_read hnet k hm s.peer hc w
    obtain ⟨sp, ⟨buf, cap, exp⟩, idle⟩ := s
    simp only at *
    subst hcap
    have hnf : (MessageBuffer.mk buf cap exp).isFull = false := by
      simp only [MessageBuffer.isFull, beq_eq_false_iff_ne]; omega
    have hstep : execStep m net (.block pl idx total) ⟨sp, ⟨buf, cap, exp⟩, idle⟩ =
        .done (.ok ((List.range cap).map (blockOf piece)).flatten) (Peer.applyMessage { sp with conn := ⟨[], t + 3 + 8 * k + 7⟩ } msg) := by
      unfold execStep
      rw [hr]
      simp only [MessageBuffer.pushMessage, hfil, hnf, Bool.not_false, Bool.and_self, if_true]
      unfold execTail
      rw [if_pos (by simp [MessageBuffer.isFull]; omega)]
      simp only [MessageBuffer.assembleContent] at hbuf ⊢
      rw [List.flatMap_append, hbuf, ← hk, List.range_succ]
      simp [hdata]
    rw [execRun, execRunTime, hstep, ht]
    refine ⟨⟨_, rfl⟩, ?_⟩
    rw [stepWaits_succ]
    simp [stepWaits]
  | succ n ih =>
    intro k f s hk hf hc hck hcap hexp hlen hbuf
    obtain ⟨f, rfl⟩ : ∃ g, f = g + 1 := ⟨f - 1, by omega⟩
    obtain ⟨msg, hm, h7, hfil, hdata⟩ := block_answer pl idx total piece k
    obtain ⟨hr, ht⟩ := lockstep_read hnet k hm s.peer hc w
    obtain ⟨sp, ⟨buf, cap, exp⟩, idle⟩ := s
    simp only at *
    subst hcap
    have hnf : (MessageBuffer.mk buf cap exp).isFull = false := by
      simp only [MessageBuffer.isFull, beq_eq_false_iff_ne]; omega
    obtain ⟨q, hq⟩ := hreq (k + 1) (by omega)
    have hnet' := hnet
    obtain ⟨hup, -, hz⟩ := hnet'
    have hw : (net (t + 3 + 8 * k + 7)).arrive = [] := hz _ (by omega) (fun k' => by omega)
    have hstep : ∃ s', execStep m net (.block pl idx total) ⟨sp, ⟨buf, cap, exp⟩, idle⟩ = .again s' ∧ s'.peer.conn = ⟨[], t + 3 + 8 * (k + 1)⟩ ∧
        s'.peer.choked = false ∧ s'.buf = ⟨buf ++ [msg], cap, k + 1 + 1⟩ := by
      unfold execStep
      rw [hr]
      simp only [MessageBuffer.pushMessage, hfil, hnf, Bool.not_false, Bool.and_self, if_true]
      have hck' := applyMessage_unchoked { sp with conn := ⟨[], t + 3 + 8 * k + 7⟩ } msg hck h7
      have hcc := applyMessage_conn { sp with conn := ⟨[], t + 3 + 8 * k + 7⟩ } msg
      generalize Peer.applyMessage { sp with conn := ⟨[], t + 3 + 8 * k + 7⟩ } msg = p' at hck' hcc
      have hnf' : (MessageBuffer.mk (buf ++ [msg]) cap exp).isFull = false := by
        simp only [MessageBuffer.isFull, beq_eq_false_iff_ne, List.length_append, List.length_singleton]; omega
      have hle : (MessageBuffer.mk (buf ++ [msg]) cap exp).isLenAsExpected = false := by
        simp only [MessageBuffer.isLenAsExpected, beq_eq_false_iff_ne, List.length_append, List.length_singleton]; omega
      unfold execTail
      rw [if_neg (by simp [hnf']), if_neg (by simp [hck'])]
      unfold MessageBuffer.requestNextMessage
      rw [if_neg (by simp [hnf', hle])]
      simp only [Downloadable.request, List.length_append, List.length_singleton, hlen, hq]
      rw [if_neg (by omega)]
      refine ⟨_, rfl, ?_, hck', by rw [hexp]⟩
      show (p'.conn.advance net) = _
      rw [hcc]
      simp only [Conn.advance, hw]
      rw [show t + 3 + 8 * k + 7 + 1 = t + 3 + 8 * (k + 1) by omega]
      rfl
    obtain ⟨s', he, h1, h2, h3⟩ := hstep
    have := ih (k + 1) f s' (by omega) (by omega) h1 h2 (by rw [h3]) (by rw [h3]) (by rw [h3]; simp [hlen]) (by
      rw [h3]
      simp only [MessageBuffer.assembleContent] at hbuf ⊢
      rw [List.flatMap_append, hbuf, List.range_succ]
      simp [hdata])
    rw [execRun, execRunTime, he, ht]
    refine ⟨this.1, ?_⟩
    simp only []
    rw [this.2, stepWaits_succ w t k (n + 1)]

/-- C114: a peer in step that answers request `k` after `w (t + 4 + 8 * k)` ms: the download takes the sum of these times and that of one poll before
the first request is written, during which nobody does anything. -/
theorem C114_exact (m : Build) (net : Net) (w : Waits) (pl idx total f : Nat) (p : Peer) (piece : Bytes) (hin : idx * pl < total)
    (ho : pl * (idx + 1) < 2 ^ 64) (ht : total < 2 ^ 64) (hi : idx < 2 ^ 32) (hpl : 0 < pl) (hpiece : piece.length = pieceSize pl idx total)
    (hb : p.conn.buf = []) (hck : p.choked = false) (hnet : Lockstep net p.conn.t (blockMsg idx piece))
    (hf : (piece.length + 16383) / 16384 < f) :
    ((Downloadable.block pl idx total).download m net f p).1 = .ok piece ∧
    execRunTime m net w (.block pl idx total) f ⟨p, ⟨[], (piece.length + 16383) / 16384, 0⟩, 0⟩ = min (w (p.conn.t + 1)) 100 +
      ((List.range ((piece.length + 16383) / 16384)).map (fun k => min (w (p.conn.t + 4 + 8 * k)) 100)).sum := by
  have hcap : ((Downloadable.block pl idx total).capacity m p : Res DownloadableError Nat) =
      .ok ((piece.length + 16383) / 16384) := by
    simp only [Downloadable.capacity, realPieceLength_eq m pl idx total hin ho hi, Res.bind_ok]
    rw [stepByLen_spec _ _ (by decide), hpiece]
    rfl
  have hsz : pieceSize pl idx total = min pl (total - idx * pl) := rfl
  have hall : ((List.range ((piece.length + 16383) / 16384)).map (blockOf piece)).flatten = piece := by
    rw [blocks_flatten, List.take_of_length_le (by omega)]
  have hreq : ∀ i, i < (piece.length + 16383) / 16384 → ∃ msg, (blockRequest m pl idx total i : Res DownloadableError Message) = .ok msg :=
    fun i hi' => ⟨_, blockRequest_eq m pl idx total i (by omega) ht⟩
  have hn0 : 0 < (piece.length + 16383) / 16384 := by omega
  generalize (piece.length + 16383) / 16384 = B at *
  obtain ⟨f, rfl⟩ : ∃ g, f = g + 1 := ⟨f - 1, by omega⟩
  have hnet' := hnet
  obtain ⟨hup, -, hz⟩ := hnet'
  have z0 : (net p.conn.t).arrive = [] := hz _ (by omega) (fun k => by omega)
  have z1 : (net (p.conn.t + 1)).arrive = [] := hz _ (by omega) (fun k => by omega)
  have z2 : (net (p.conn.t + 2)).arrive = [] := hz _ (by omega) (fun k => by omega)
  obtain ⟨ht0, hr0⟩ := empty_time (net := net) (w := w) (c := p.conn) (by simp [Conn.after, arrivals, hb, z0, z1]) (hup _ (by omega)) (hup _ (by omega))
  obtain ⟨q, hq⟩ := hreq 0 hn0
  have hstep : ∃ s', execStep m net (.block pl idx total) ⟨p, ⟨[], B, 0⟩, 0⟩ = .again s' ∧ s'.peer.conn = ⟨[], p.conn.t + 3 + 8 * 0⟩ ∧
      s'.peer.choked = false ∧ s'.buf = ⟨[], B, 1⟩ := by
    unfold execStep Peer.readMessage
    simp only [hr0]
    unfold execTail
    rw [if_neg (by simp [MessageBuffer.isFull]; omega), if_neg (by simp [hck])]
    unfold MessageBuffer.requestNextMessage
    rw [if_neg (by simp [MessageBuffer.isFull, MessageBuffer.isLenAsExpected]; omega)]
    simp only [Downloadable.request, List.length_nil, hq]
    rw [if_neg (by omega)]
    refine ⟨_, rfl, ?_, hck, rfl⟩
    show (Conn.advance net ⟨[], p.conn.t + 2⟩) = _
    simp [Conn.advance, z2]
  obtain ⟨s', he, h1, h2, h3⟩ := hstep
  obtain ⟨⟨q', hrun⟩, htime⟩ := lockstep_run (w := w) hnet hreq (B - 1) 0 f s' (by omega) (by omega) h1 h2 (by rw [h3]) (by rw [h3]) (by rw [h3]; rfl) (by
    rw [h3]; rfl)
  constructor
  · unfold Downloadable.download
    rw [hcap]
    simp only [execute]
    rw [execRun, he]
    simp only [hrun, hall]
  · rw [execRunTime, he]
    simp only []
    rw [htime, ht0, show B - 1 + 1 = B by omega]
    simp [stepWaits]

/-- Non-vacuity: a peer in step with a piece of any number of blocks. -/
theorem lockstep_exists (idx : Nat) (piece : Bytes) :
    Lockstep (fun i => ⟨if i % 8 = 4 then wire (blockMsg idx piece ((i - 4) / 8)) else [], .up⟩) 0 (blockMsg idx piece) := by
  refine ⟨fun i _ => rfl, fun k => ?_, fun i _ h => ?_⟩
  · simp only [Nat.zero_add]
    rw [if_pos (by omega), show (4 + 8 * k - 4) / 8 = k by omega]
  · simp only []
    rw [if_neg]
    intro h8
    exact h ((i - 4) / 8) (by omega)

/-- A piece of 256 KiB from a peer 50 ms away: 100 ms and 16 times 50 ms, when the link itself may need no more than 50 ms. -/
example : execRunTime .release (fun i => ⟨if i % 8 = 4 then wire (blockMsg 0 (List.replicate 262144 1) ((i - 4) / 8)) else [], .up⟩) fiftyEach
    (.block 262144 0 262144) 17 ⟨readyPeer, ⟨[], 16, 0⟩, 0⟩ = 900 := by
  have h := (C114_exact .release _ fiftyEach 262144 0 262144 17 readyPeer (List.replicate 262144 1) (by omega) (by omega) (by omega) (by omega) (by omega)
    (by rw [List.length_replicate]; rfl) rfl rfl (lockstep_exists 0 (List.replicate 262144 1)) (by rw [List.length_replicate]; omega)).2
  rw [List.length_replicate] at h
  exact h

end RustBit
