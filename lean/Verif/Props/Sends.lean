/-
C95: failures to send.
-/
import Verif.Props.Clock
import Verif.Props.Honest

namespace Spec
open RustBit

/-- The two schedules are the same for the system calls from number `a` up to `b`, exclusively. -/
def Agree (net net' : Net) (a b : Nat) : Prop := ∀ u, a ≤ u → u < b → net u = net' u

/-- The schedule `net`, except that system call number `k` fails. -/
def failAt (net : Net) (k : Nat) : Net := fun t => if t = k then ⟨(net t).arrive, .fail⟩ else net t

end Spec

namespace RustBit
open Spec

/-! ### What is read depends only on the system calls made -/

/-- An operation on the connection whose result depends only on the system calls it makes. -/
structure Localised {α : Type} (g : Net → Conn → α × Conn) : Prop where
  mono : ∀ net c, c.t ≤ (g net c).2.t
  eq : ∀ net net' c, Agree net net' c.t (g net c).2.t → g net' c = g net c

def pureC {α : Type} (a : α) : Net → Conn → α × Conn := fun _ c => (a, c)

def bindC {α β : Type} (g : Net → Conn → α × Conn) (h : α → Net → Conn → β × Conn) : Net → Conn → β × Conn :=
  fun net c => h (g net c).1 net (g net c).2

theorem localised_pure {α : Type} (a : α) : Localised (pureC a) := ⟨fun _ _ => Nat.le_refl _, fun _ _ _ _ => rfl⟩

theorem localised_bind {α β : Type} {g : Net → Conn → α × Conn} {h : α → Net → Conn → β × Conn} (hg : Localised g) (hh : ∀ a, Localised (h a)) :
    Localised (bindC g h) := by
  refine ⟨fun net c => Nat.le_trans (hg.mono net c) ((hh _).mono net _), fun net net' c ha => ?_⟩
  have e : g net' c = g net c := hg.eq net net' c (fun u h1 h2 => ha u h1 (Nat.lt_of_lt_of_le h2 ((hh _).mono net _)))
  unfold bindC
  rw [e]
  exact (hh _).eq net net' _ (fun u h1 h2 => ha u (Nat.le_trans (hg.mono net c) h1) h2)

theorem agree_advance {net net' : Net} {c : Conn} (h : Agree net net' c.t (c.advance net).t) : net' c.t = net c.t :=
  (h c.t (Nat.le_refl _) (by simp [Conn.advance])).symm

theorem localised_timeout : Localised (fun net c => c.setReadTimeout net) := by
  refine ⟨fun net c => by simp [Conn.setReadTimeout, Conn.advance], fun net net' c h => ?_⟩
  have e := agree_advance h
  simp only [Conn.setReadTimeout, Conn.advance, e]

theorem localised_peek (n : Nat) : Localised (fun net c => c.peek net n) := by
  refine ⟨fun net c => by rw [peek_conn]; simp [Conn.advance], fun net net' c h => ?_⟩
  rw [peek_conn] at h
  have e := agree_advance h
  simp only [Conn.peek, Conn.advance, e]
  rfl

theorem localised_read (n : Nat) : Localised (fun net c => c.read net n) := by
  have hp := localised_peek n
  have ht : ∀ net c, (Conn.read net c n).2.t = (Conn.peek net c n).2.t := by
    intro net c
    unfold Conn.read
    split <;> rename_i e <;> rw [e]
  refine ⟨fun net c => by rw [ht]; exact hp.mono net c, fun net net' c h => ?_⟩
  rw [ht] at h
  have e : c.peek net' n = c.peek net n := hp.eq net net' c h
  unfold Conn.read
  rw [e]

theorem localised_has : Localised hasMessages := by
  have e : hasMessages = bindC (fun net c => c.peek net 1) (fun
      | some bs => pureC (decide (bs.length ≠ 0))
      | none => pureC false) := by
    funext net c
    simp only [hasMessages, bindC]
    generalize c.peek net 1 = x
    obtain ⟨_ | _, _⟩ := x <;> rfl
  rw [e]
  refine localised_bind (localised_peek 1) ?_
  rintro (_ | bs) <;> exact localised_pure _

theorem localised_peekAndRead (length : Nat) : Localised (fun net c => peekAndRead net c length) := by
  have e : (fun net c => peekAndRead net c length) = bindC (fun net c => c.peek net length) (fun r1 =>
      if countOr0 r1 = length then bindC (fun net c => c.read net length) (fun r2 =>
        if countOr0 r2 = length then pureC (some (r2.getD [])) else pureC none)
      else pureC none) := by
    funext net c
    unfold peekAndRead bindC
    simp only []
    split
    · simp only []
      split <;> rfl
    · rfl
  rw [e]
  refine localised_bind (localised_peek _) fun r1 => ?_
  split
  · refine localised_bind (localised_read _) fun r2 => ?_
    split <;> exact localised_pure _
  · exact localised_pure _

theorem localised_bodyLoop (length : Nat) : ∀ k, Localised (fun net c => bodyLoop net k c length) := by
  intro k
  induction k with
  | zero => exact localised_pure none
  | succ k ih =>
    have e : (fun net c => bodyLoop net (k + 1) c length) = bindC (fun net c => peekAndRead net c length) (fun
        | some body => pureC (some body)
        | none => fun net c => bodyLoop net k c length) := by
      funext net c
      simp only [bodyLoop, bindC]
      generalize peekAndRead net c length = x
      obtain ⟨_ | _, _⟩ := x <;> rfl
    rw [e]
    refine localised_bind (localised_peekAndRead _) ?_
    rintro (_ | body)
    · exact ih
    · exact localised_pure _

theorem localised_framed : Localised readFramed := by
  have e : readFramed = bindC (fun net c => c.read net 4) (fun
      | none => pureC none
      | some b4 => bindC (fun net c => c.read net 1) (fun
        | none => pureC none
        | some b1 => if ofBe (padTo 4 b4) = 0 then pureC (some ([], (padTo 1 b1).headD 0, 0))
          else bindC (fun net c => bodyLoop net 39 c (ofBe (padTo 4 b4) - 1)) (fun
            | some body => pureC (some (body, (padTo 1 b1).headD 0, ofBe (padTo 4 b4) - 1))
            | none => pureC none))) := by
    funext net c
    simp only [readFramed, bindC]
    generalize c.read net 4 = x
    obtain ⟨_ | b4, c1⟩ := x
    · rfl
    · simp only [bindC]
      generalize c1.read net 1 = x
      obtain ⟨_ | b1, c2⟩ := x
      · rfl
      · simp only []
        split
        · rfl
        · simp only [bindC]
          generalize bodyLoop net 39 c2 (ofBe (padTo 4 b4) - 1) = x
          obtain ⟨_ | _, _⟩ := x <;> rfl
  rw [e]
  refine localised_bind (localised_read _) ?_
  rintro (_ | b4)
  · exact localised_pure _
  · refine localised_bind (localised_read _) ?_
    rintro (_ | b1)
    · exact localised_pure _
    · simp only []
      split
      · exact localised_pure _
      · refine localised_bind (localised_bodyLoop _ _) ?_
        rintro (_ | body) <;> exact localised_pure _

theorem localised_stream : Localised readStream := by
  have e : readStream = bindC (fun net c => c.setReadTimeout net) (fun
      | false => pureC none
      | true => bindC hasMessages (fun
        | false => pureC none
        | true => bindC (fun net c => c.peek net 68) (fun
          | some p => if p.length = 68 ∧ p.head? = some 0x13 then bindC (fun net c => c.read net 68) (fun
              | none => pureC none
              | some bs => pureC (some (padTo 68 bs, (19 : UInt8), 68)))
            else readFramed
          | none => readFramed))) := by
    funext net c
    simp only [readStream, bindC]
    generalize c.setReadTimeout net = x
    obtain ⟨_ | _, c0⟩ := x
    · rfl
    · simp only [bindC]
      generalize hasMessages net c0 = x
      obtain ⟨_ | _, c1⟩ := x
      · rfl
      · simp only [bindC]
        generalize c1.peek net 68 = x
        obtain ⟨_ | p, c2⟩ := x
        · rfl
        · simp only []
          split
          · simp only [bindC]
            generalize c2.read net 68 = x
            obtain ⟨_ | _, _⟩ := x <;> rfl
          · rfl
  rw [e]
  refine localised_bind localised_timeout ?_
  rintro (_ | _)
  · exact localised_pure _
  · refine localised_bind localised_has ?_
    rintro (_ | _)
    · exact localised_pure _
    · refine localised_bind (localised_peek _) ?_
      rintro (_ | p)
      · exact localised_framed
      · simp only []
        split
        · refine localised_bind (localised_read _) ?_
          rintro (_ | bs) <;> exact localised_pure _
        · exact localised_framed

theorem readMessage_t {ε : Type} (net : Net) (p : Peer) : (p.readMessage (ε := ε) net).2.conn.t = (readStream net p.conn).2.t := by
  unfold Peer.readMessage
  split <;> rename_i e <;> rw [e]
  split <;> rfl

theorem readMessage_local {ε : Type} {net net' : Net} {p : Peer} (h : Agree net net' p.conn.t (p.readMessage (ε := ε) net).2.conn.t) :
    p.readMessage (ε := ε) net' = p.readMessage net := by
  rw [readMessage_t] at h
  unfold Peer.readMessage
  rw [localised_stream.eq net net' p.conn h]

theorem readAndApply_t (net : Net) (p : Peer) : (readAndApply net p).2.conn.t = (readStream net p.conn).2.t := by
  rw [← readMessage_t (ε := PeerManagerError)]
  unfold readAndApply
  split <;> rename_i e <;> rw [e]
  rw [applyMessage_conn]

theorem readAndApply_local {net net' : Net} {p : Peer} (h : Agree net net' p.conn.t (readAndApply net p).2.conn.t) :
    readAndApply net' p = readAndApply net p := by
  rw [readAndApply_t] at h
  unfold readAndApply
  rw [readMessage_local (by rw [readMessage_t]; exact h)]

theorem readAndApply_mono (net : Net) (p : Peer) : p.conn.t ≤ (readAndApply net p).2.conn.t := by
  rw [readAndApply_t]
  exact localised_stream.mono _ _

theorem readyLoop_since {net net' : Net} : ∀ (k : Nat) (p : Peer), (∀ u, p.conn.t ≤ u → net u = net' u) → readyLoop net' k p = readyLoop net k p := by
  intro k
  induction k with
  | zero => intro p _; rfl
  | succ k ih =>
    intro p h
    rw [readyLoop, readyLoop, readAndApply_local (net := net) (net' := net') (fun u h1 _ => h u h1)]
    split
    · rename_i p' e
      split
      · rfl
      · refine ih p' (fun u hu => h u (Nat.le_trans ?_ hu))
        have := readAndApply_mono net p
        rw [e] at this
        exact this
    all_goals rfl

/-- Reading a message is no cause of an error. -/
theorem readAndApply_no_err {net : Net} {p q : Peer} {e : PeerManagerError} : readAndApply net p ≠ (.err e, q) := by
  unfold readAndApply
  split <;> rename_i h <;> try (intro h'; cases h'; done)
  exfalso
  revert h
  unfold Peer.readMessage
  split
  · intro h; cases h
  · split <;> (intro h; cases h)

/-! ### C95 -/

theorem writeAll_conn (net : Net) (c : Conn) : (c.writeAll net).2 = ⟨c.buf ++ (net c.t).arrive, c.t + 1⟩ := rfl

/-- C95, the part that holds, exactly: opening a connection reports that something could not be sent if and only if the peer has answered
the handshake and the system call that sends the extension handshake fails. Missing: all other messages (refuted below). -/
theorem C95_noticed_partial (net : Net) (p : Peer) : (initPeer net p).1 = .err .handshakeMetadata ↔
    ∃ q, readAndApply net (p.sendMessage net (newHandshake p.infoHash p.id)) = (.ok (), q) ∧ q.active = true ∧ (net (q.conn.t + 1)).kind = .fail := by
  unfold initPeer
  simp only []
  cases hr : readAndApply net (p.sendMessage net (newHandshake p.infoHash p.id)) with
  | mk r q =>
    have hloop : ∀ k (x : Peer), (readyLoop net k x).1 ≠ .err .handshakeMetadata := by
      intro k
      induction k with
      | zero => intro x; simp [readyLoop]
      | succ k ih =>
        intro x
        rw [readyLoop]
        split
        · split
          · simp
          · exact ih _
        · rename_i e p' hx
          exact absurd hx readAndApply_no_err
        · simp
        · simp
    cases r with
    | ok u =>
      simp only [Prod.mk.injEq, true_and]
      cases ha : q.active with
      | false =>
        simp only [Bool.not_false, if_true]
        constructor
        · intro h; simp at h
        · rintro ⟨x, rfl, hx, -⟩; rw [ha] at hx; cases hx
      | true =>
        simp only [Bool.not_true, Bool.false_eq_true, if_false]
        have hw : ((q.sendMessage net newInterested).sendMetadataHandshakeRequest net).1 = decide ((net (q.conn.t + 1)).kind ≠ .fail) := rfl
        generalize (q.sendMessage net newInterested).sendMetadataHandshakeRequest net = x at hw
        obtain ⟨b, x⟩ := x
        simp only at hw
        cases b with
        | false =>
          refine ⟨fun _ => ⟨q, rfl, ha, ?_⟩, fun _ => rfl⟩
          simpa using hw.symm
        | true =>
          refine ⟨fun h => absurd h (hloop _ _), ?_⟩
          rintro ⟨y, rfl, -, hy⟩
          rw [hy] at hw
          simp at hw
    | err e => exact absurd hr readAndApply_no_err
    | panic => simp
    | hang => simp

/-- The full C95 is false: whether the handshake could be sent makes no difference. -/
theorem C95_refuted_handshake (net : Net) (p : Peer) : initPeer (failAt net p.conn.t) p = initPeer net p := by
  have hs : p.sendMessage (failAt net p.conn.t) (newHandshake p.infoHash p.id) = p.sendMessage net (newHandshake p.infoHash p.id) := by
    simp only [Peer.sendMessage, Peer.write, Conn.writeAll, Conn.advance, failAt, if_true]
  have hsame : ∀ u, p.conn.t + 1 ≤ u → net u = failAt net p.conn.t u := by
    intro u hu
    rw [failAt, if_neg (by omega)]
  unfold initPeer
  simp only [hs]
  have ht : (p.sendMessage net (newHandshake p.infoHash p.id)).conn.t = p.conn.t + 1 := rfl
  rw [readAndApply_local (net := net) (fun u h1 _ => hsame u (by omega))]
  have hmono := readAndApply_mono net (p.sendMessage net (newHandshake p.infoHash p.id))
  split
  · rename_i q e
    rw [e, ht] at hmono
    simp only at hmono
    split
    · rfl
    · have e1 : q.sendMessage (failAt net p.conn.t) newInterested = q.sendMessage net newInterested := by
        simp only [Peer.sendMessage, Peer.write, Conn.writeAll, Conn.advance, ← hsame q.conn.t hmono]
      have e2 : (q.sendMessage net newInterested).sendMetadataHandshakeRequest (failAt net p.conn.t) =
          (q.sendMessage net newInterested).sendMetadataHandshakeRequest net := by
        have : p.conn.t + 1 ≤ (q.sendMessage net newInterested).conn.t := by show _ ≤ q.conn.t + 1; omega
        simp only [Peer.sendMetadataHandshakeRequest, Peer.write, Conn.writeAll, Conn.advance, ← hsame _ this]
      rw [e1, e2]
      split
      · rfl
      · rename_i x e3
        refine readyLoop_since _ _ (fun u hu => hsame u ?_)
        have : x.conn.t = q.conn.t + 2 := by
          have := congrArg (fun y => y.2.conn.t) e3
          exact this.symm
        omega
  all_goals rfl

/-- The full C95 is false: whether the `interested` message could be sent makes no difference. -/
theorem C95_refuted_interested (net : Net) (p q : Peer) (h : readAndApply net (p.sendMessage net (newHandshake p.infoHash p.id)) = (.ok (), q)) :
    initPeer (failAt net q.conn.t) p = initPeer net p := by
  have ht : (p.sendMessage net (newHandshake p.infoHash p.id)).conn.t = p.conn.t + 1 := rfl
  have hmono := readAndApply_mono net (p.sendMessage net (newHandshake p.infoHash p.id))
  rw [h, ht] at hmono
  simp only at hmono
  have hs : p.sendMessage (failAt net q.conn.t) (newHandshake p.infoHash p.id) = p.sendMessage net (newHandshake p.infoHash p.id) := by
    simp only [Peer.sendMessage, Peer.write, Conn.writeAll, Conn.advance, failAt]
    rw [if_neg (by omega)]
  have hr : readAndApply (failAt net q.conn.t) (p.sendMessage net (newHandshake p.infoHash p.id)) = (.ok (), q) := by
    rw [← h]
    refine readAndApply_local fun u _ h2 => ?_
    rw [h] at h2
    simp only at h2
    rw [failAt, if_neg (by omega)]
  unfold initPeer
  simp only [hs, hr, h]
  split
  · rfl
  · have e1 : q.sendMessage (failAt net q.conn.t) newInterested = q.sendMessage net newInterested := by
      simp only [Peer.sendMessage, Peer.write, Conn.writeAll, Conn.advance, failAt, if_true]
    have e2 : (q.sendMessage net newInterested).sendMetadataHandshakeRequest (failAt net q.conn.t) =
        (q.sendMessage net newInterested).sendMetadataHandshakeRequest net := by
      have : failAt net q.conn.t (q.sendMessage net newInterested).conn.t = net (q.sendMessage net newInterested).conn.t := by
        rw [failAt, if_neg (by show q.conn.t + 1 ≠ _; omega)]
      simp only [Peer.sendMetadataHandshakeRequest, Peer.write, Conn.writeAll, Conn.advance, this]
    rw [e1, e2]
    split
    · rfl
    · rename_i x e3
      refine readyLoop_since _ _ (fun u hu => ?_)
      have : x.conn.t = q.conn.t + 2 := by
        have := congrArg (fun y => y.2.conn.t) e3
        exact this.symm
      rw [failAt, if_neg (by omega)]

/-- The full C95 is false: whether a request could be sent makes no difference to an iteration of the loop that fetches a piece or the metadata;
the request counts as sent. -/
theorem C95_refuted_request (m : Build) (net : Net) (d : Downloadable) (s : DState) :
    execStep m (failAt net (s.peer.readMessage (ε := DownloadableError) net).2.conn.t) d s = execStep m net d s := by
  have key : ∀ (k : Nat) (x : DState), x.peer.conn.t = k → execTail m (failAt net k) d x = execTail m net d x := by
    intro k x hx
    have e : x.buf.requestNextMessage (ε := DownloadableError) m (failAt net k) d x.peer = x.buf.requestNextMessage m net d x.peer := by
      unfold MessageBuffer.requestNextMessage
      split
      · rfl
      · split <;> try rfl
        simp only [Peer.sendMessage, Peer.write, Conn.writeAll, Conn.advance, failAt, hx, if_true]
    unfold execTail
    rw [e]
  have hr : s.peer.readMessage (ε := DownloadableError) (failAt net (s.peer.readMessage (ε := DownloadableError) net).2.conn.t) = s.peer.readMessage net := by
    refine readMessage_local fun u _ h2 => ?_
    rw [failAt, if_neg (by omega)]
  unfold execStep
  rw [hr]
  split <;> rename_i e <;> try rfl
  all_goals rw [e]
  · exact key _ _ (by rw [applyMessage_conn])
  · exact key _ _ rfl

/-- What the peer of the next theorem sends, and when: its handshake, an announcement of metadata and an unchoke at once, and the only block of
the piece after it has been asked for. Calls 0, 5 and 23 (which send the handshake, `interested` and the request) fail. -/
def deafPeer : Net := fun t =>
  if t = 0 then ⟨(newHandshake (List.replicate 20 0) (List.replicate 20 7)).asBytes ++ wire honestExt ++ wire (1, []), .fail⟩
  else if t = 24 then ⟨wire (7, [0, 0, 0, 0, 0, 0, 0, 0, 1, 2, 3]), .up⟩
  else ⟨[], if t = 5 ∨ t = 23 then .fail else .up⟩

/-- The full C95 is false: the peer gets neither the handshake nor `interested` nor the request, and the piece is downloaded from it. -/
theorem C95_refuted : downloadPiece (fun _ => List.replicate 20 0) .debug (.connected deafPeer) 5 [] ⟨none, some 3, b!"a", 3, List.replicate 20 0⟩ 0 =
      .ok [1, 2, 3] ∧
    ((downloadRun (fun _ => List.replicate 20 0) .debug deafPeer 5 [] ⟨none, some 3, b!"a", 3, List.replicate 20 0⟩ 0).2.log.filter
      (fun e => match e with | .sent _ => true | .got _ => false)).length = 4 := by
  decide +kernel

/-- Non-vacuity of `C95_noticed_partial`: the extension handshake cannot be sent. -/
example : (initPeer (failAt deafPeer 6) (Peer.new ⟨[], 0⟩ (List.replicate 20 0) [])).1 = .err .handshakeMetadata := by
  decide +kernel

end RustBit
