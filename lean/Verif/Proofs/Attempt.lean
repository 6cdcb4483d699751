/- Opening a connection and transferring blocks, in terms of the messages read. -/
import Verif.Spec.Attempt
import Verif.Proofs.Download

namespace RustBit
open Spec

/-! ### Polls -/

theorem reads_cons {net : Net} {c c1 c2 : Conn} {k : Nat} {a b : List Message} (h1 : Polls net c 1 a c1) (h2 : Polls net c1 k b c2) :
    Polls net c (k + 1) (a ++ b) c2 := by
  cases h1 with
  | nothing h h' => cases h'; exact .nothing h h2
  | garbled h hn h' => cases h'; exact .garbled h hn h2
  | message h hn h' => cases h'; exact .message h hn h2

theorem reads_uncons {net : Net} {c c2 : Conn} {k : Nat} {ms : List Message} (h : Polls net c (k + 1) ms c2) :
    ∃ c1 a b, ms = a ++ b ∧ Polls net c 1 a c1 ∧ Polls net c1 k b c2 := by
  cases h with
  | nothing h h' => exact ⟨_, [], _, rfl, .nothing h (.none _), h'⟩
  | garbled h hn h' => exact ⟨_, [], _, rfl, .garbled h hn (.none _), h'⟩
  | message h hn h' => exact ⟨_, [_], _, rfl, .message h hn (.none _), h'⟩

theorem reads_det {net : Net} {k : Nat} : ∀ {c : Conn} {a b : List Message} {x y : Conn}, Polls net c k a x → Polls net c k b y → a = b ∧ x = y := by
  induction k with
  | zero => intro c a b x y h1 h2; cases h1; cases h2; exact ⟨rfl, rfl⟩
  | succ k ih =>
    intro c a b x y h1 h2
    cases h1 with
    | nothing r1 t1 => cases h2 with
      | nothing r2 t2 => rw [r1] at r2; cases r2; exact ih t1 t2
      | garbled r2 n2 t2 => rw [r1] at r2; cases r2
      | message r2 n2 t2 => rw [r1] at r2; cases r2
    | garbled r1 n1 t1 => cases h2 with
      | nothing r2 t2 => rw [r1] at r2; cases r2
      | garbled r2 n2 t2 => rw [r1] at r2; cases r2; exact ih t1 t2
      | message r2 n2 t2 => rw [r1] at r2; cases r2; rw [n1] at n2; cases n2
    | message r1 n1 t1 => cases h2 with
      | nothing r2 t2 => rw [r1] at r2; cases r2
      | garbled r2 n2 t2 => rw [r1] at r2; cases r2; rw [n1] at n2; cases n2
      | message r2 n2 t2 =>
        rw [r1] at r2; cases r2; rw [n1] at n2; cases n2
        obtain ⟨rfl, h⟩ := ih t1 t2
        exact ⟨rfl, h⟩

/-- The peer after a read that gave the messages `ms` (none or one). -/
def takes (p : Peer) (ms : List Message) (c : Conn) : Peer := ms.foldl Peer.applyMessage { p with conn := c }

/-- What one read does. -/
theorem readMessage_reads {ε : Type} (net : Net) (p : Peer) :
    (∃ c, Polls net p.conn 1 [] c ∧ (p.readMessage net : Res ε _ × Peer) = (.ok none, { p with conn := c })) ∨
    (∃ m c, FromWire m ∧ Polls net p.conn 1 [m] c ∧ (p.readMessage net : Res ε _ × Peer) = (.ok (some m), { p with conn := c })) ∨
    (¬ (∃ k ms c, 0 < k ∧ Polls net p.conn k ms c) ∧
      ((p.readMessage net : Res ε _ × Peer).1 = .panic ∨ (p.readMessage net : Res ε _ × Peer).1 = .hang)) := by
  unfold Peer.readMessage
  cases h : readStream net p.conn with
  | mk r c =>
    have stuck : ∀ {body id len}, r = some (body, id, len) → (∀ m, Message.newRaw body len id ≠ .ok m) → (∀ e, Message.newRaw body len id ≠ .err e) →
        ¬ (∃ k ms c, 0 < k ∧ Polls net p.conn k ms c) := by
      intro body id len hr h1 h2
      rintro ⟨k, ms, c', hk, hr'⟩
      subst hr
      cases hr' with
      | none => omega
      | nothing r1 t1 => rw [h] at r1; cases r1
      | garbled r1 n1 t1 => rw [h] at r1; cases r1; exact h2 _ n1
      | message r1 n1 t1 => rw [h] at r1; cases r1; exact h1 _ n1
    cases r with
    | none => exact .inl ⟨c, .nothing h (.none _), rfl⟩
    | some x =>
      obtain ⟨body, id, len⟩ := x
      cases hn : Message.newRaw body len id with
      | ok m => exact .inr (.inl ⟨m, c, ⟨body, len, id, hn⟩, .message h hn (.none _), by simp [hn]⟩)
      | err e => exact .inl ⟨c, .garbled h hn (.none _), by simp [hn]⟩
      | panic => exact .inr (.inr ⟨stuck rfl (by simp [hn]) (by simp [hn]), .inl (by simp [hn])⟩)
      | hang => exact .inr (.inr ⟨stuck rfl (by simp [hn]) (by simp [hn]), .inr (by simp [hn])⟩)

theorem readAndApply_reads (net : Net) (p : Peer) :
    (∃ ms c, Polls net p.conn 1 ms c ∧ (ms = [] ∨ ∃ m, ms = [m]) ∧ (∀ m ∈ ms, FromWire m) ∧ readAndApply net p = (.ok (), takes p ms c)) ∨
    (¬ (∃ k ms c, 0 < k ∧ Polls net p.conn k ms c) ∧ ((readAndApply net p).1 = .panic ∨ (readAndApply net p).1 = .hang)) := by
  unfold readAndApply
  rcases readMessage_reads (ε := PeerManagerError) net p with ⟨c, h1, h2⟩ | ⟨m, c, hw, h1, h2⟩ | ⟨h1, h2⟩
  · rw [h2]; exact .inl ⟨[], c, h1, .inl rfl, by simp, rfl⟩
  · rw [h2]; exact .inl ⟨[m], c, h1, .inr ⟨m, rfl⟩, by simpa using hw, rfl⟩
  · right
    refine ⟨h1, ?_⟩
    generalize p.readMessage (ε := PeerManagerError) net = r at h2
    obtain ⟨r, q⟩ := r
    rcases h2 with h2 | h2 <;> (simp only at h2; subst h2; simp)

theorem takes_conn (p : Peer) (ms : List Message) (c : Conn) : (takes p ms c).conn = c := by
  unfold takes
  have : ∀ q : Peer, (ms.foldl Peer.applyMessage q).conn = q.conn := by
    induction ms with
    | nil => intro q; rfl
    | cons m t ih => intro q; rw [List.foldl_cons, ih]; simp [Peer.applyMessage, (applyState_same q m).2.1]
  rw [this]

theorem takes_tracks {p0 p : Peer} {new : List Ev} (h : Tracks p0 new p) (c : Conn) (ms : List Message) (hw : ∀ m ∈ ms, FromWire m) :
    Tracks p0 (new ++ ms.map .got) (takes p ms c) := by
  unfold takes
  replace h := h.conn c
  generalize { p with conn := c } = q at h
  clear p
  induction ms generalizing q new with
  | nil => simpa using h
  | cons m t ih =>
    have := ih (fun x hx => hw x (by simp [hx])) _ (h.got (hw m (by simp)))
    simpa using this

/-! ### Histories as lists of messages -/

theorem came_append (a b : List Ev) : came (a ++ b) = came a ++ came b := by simp [came]

theorem came_map (ms : List Message) : came (ms.map .got) = ms := by
  induction ms with
  | nil => rfl
  | cons m t ih => simp [came] at ih ⊢; exact ih

theorem choking_came (i : Bool) (l : List Ev) : choking i l = choking i ((came l).map .got) := by
  induction l generalizing i with
  | nil => rfl
  | cons e t ih =>
    cases e with
    | sent x => simpa [choking, came] using ih i
    | got m => simpa [choking, came] using ih _

theorem announced_came (i : Nat) (l : List Ev) : announcedSize i l = announcedSize i ((came l).map .got) := by
  induction l generalizing i with
  | nil => rfl
  | cons e t ih =>
    cases e with
    | sent x => simpa [announcedSize, came] using ih i
    | got m => simpa [announcedSize, came] using ih _

theorem received_came (f : Message → Bool) (l : List Ev) : received f l = (came l).filter f := by
  induction l with
  | nil => rfl
  | cons e t ih =>
    cases e with
    | sent x => simpa [received, came] using ih
    | got m => by_cases hf : f m = true <;> simpa [received, came, hf] using ih

theorem ready_after {hash id : Bytes} {new : List Ev} {p : Peer} (h : Tracks (Peer.new ⟨[], 0⟩ hash id) new p) :
    p.isReady = true ↔ ReadyAfter (came new) := by
  simp only [Peer.isReady, Bool.and_eq_true, decide_eq_true_eq, Bool.not_eq_true', ReadyAfter, sizeAfter, chokingAfter, ← choking_came, ← announced_came]
  rw [h.choked, h.size]
  rfl

/-! ### Waiting until the peer is ready -/

section
variable {net : Net} {hash id : Bytes}

theorem readyLoop_out (k : Nat) : ∀ {new : List Ev} {p : Peer}, Tracks (Peer.new ⟨[], 0⟩ hash id) new p →
    (∃ later q, readyLoop net k p = (.err .peerNotReady, q) ∧ Polls net p.conn k later q.conn ∧ came q.log = came new ++ later ∧
      ∀ k' ms' c', 0 < k' → k' ≤ k → Polls net p.conn k' ms' c' → ¬ ReadyAfter (came new ++ ms')) ∨
    (∃ k1 later q, readyLoop net k p = (.ok (), q) ∧ 0 < k1 ∧ k1 ≤ k ∧ Polls net p.conn k1 later q.conn ∧ came q.log = came new ++ later ∧
      ReadyAfter (came new ++ later) ∧ ∀ k' ms' c', 0 < k' → k' < k1 → Polls net p.conn k' ms' c' → ¬ ReadyAfter (came new ++ ms')) ∨
    ((readyLoop net k p).1 = .panic ∨ (readyLoop net k p).1 = .hang) := by
  induction k with
  | zero =>
    intro new p h
    exact .inl ⟨[], p, rfl, .none _, by rw [h.log]; simp [Peer.new], fun k' _ _ h1 h2 => absurd h1 (by omega)⟩
  | succ k ih =>
    intro new p h
    rw [readyLoop]
    rcases readAndApply_reads net p with ⟨ms, c, h1, -, hw, h2⟩ | ⟨-, h2⟩
    · rw [h2]
      simp only []
      have ht := takes_tracks h c ms hw
      have hc : came (new ++ ms.map .got) = came new ++ ms := by rw [came_append, came_map]
      have hr := ready_after ht
      rw [hc] at hr
      split
      · rename_i hy
        right; left
        refine ⟨1, ms, _, rfl, by omega, by omega, by rw [takes_conn]; exact h1, ?_, hr.mp hy, fun k' _ _ a b => absurd a (by omega)⟩
        rw [ht.log]
        simpa [Peer.new] using hc
      · rename_i hy
        have hno : ¬ ReadyAfter (came new ++ ms) := fun hx => hy (hr.mpr hx)
        have hshift : ∀ {K : Nat}, (∀ k' ms' c', 0 < k' → k' ≤ K → Polls net (takes p ms c).conn k' ms' c' →
            ¬ ReadyAfter (came (new ++ ms.map .got) ++ ms')) →
            ∀ k' ms' c', 0 < k' → k' ≤ K + 1 → Polls net p.conn k' ms' c' → ¬ ReadyAfter (came new ++ ms') := by
          intro K hK k' ms' c' h3 h4 h5
          obtain ⟨j, rfl⟩ : ∃ j, k' = j + 1 := ⟨k' - 1, by omega⟩
          obtain ⟨c1, a, b, rfl, r1, r2⟩ := reads_uncons h5
          obtain ⟨rfl, rfl⟩ := reads_det r1 h1
          by_cases hj : j = 0
          · subst hj; cases r2; simpa using hno
          · have := hK j b c' (by omega) (by omega) (by rw [takes_conn]; exact r2)
            rw [hc, List.append_assoc] at this
            exact this
        rcases ih ht with ⟨later, q, e1, e2, e3, e4⟩ | ⟨k1, later, q, e1, e2, e3, e4, e5, e6, e7⟩ | e
        · left
          refine ⟨ms ++ later, q, e1, ?_, by rw [e3, hc, List.append_assoc], hshift e4⟩
          rw [takes_conn] at e2
          exact reads_cons h1 e2
        · right; left
          rw [takes_conn] at e4
          rw [hc, List.append_assoc] at e5 e6
          refine ⟨k1 + 1, ms ++ later, q, e1, by omega, by omega, reads_cons h1 e4, e5, e6, ?_⟩
          obtain ⟨j, rfl⟩ : ∃ j, k1 = j + 1 := ⟨k1 - 1, by omega⟩
          intro k' ms' c' a b
          exact hshift (K := j) (fun k' ms' c' a b => e7 k' ms' c' a (by omega)) k' ms' c' a (by omega)
        · exact .inr (.inr e)
    · right; right
      generalize readAndApply net p = r at h2
      obtain ⟨r, q⟩ := r
      rcases h2 with h2 | h2 <;> (simp only at h2; subst h2; simp)

theorem readyLoop_notReady (k : Nat) : ∀ {new : List Ev} {p : Peer}, Tracks (Peer.new ⟨[], 0⟩ hash id) new p → ∀ {later : List Message} {c : Conn},
    Polls net p.conn k later c → (∀ k' ms' c', 0 < k' → k' ≤ k → Polls net p.conn k' ms' c' → ¬ ReadyAfter (came new ++ ms')) →
    ∃ q, readyLoop net k p = (.err .peerNotReady, q) := by
  induction k with
  | zero => intro new p h later c _ _; exact ⟨p, rfl⟩
  | succ k ih =>
    intro new p h later c hr hno
    obtain ⟨c1, a, b, rfl, r1, r2⟩ := reads_uncons hr
    rw [readyLoop]
    rcases readAndApply_reads net p with ⟨ms, c', h1, -, hw, h2⟩ | ⟨h1, -⟩
    · obtain ⟨rfl, rfl⟩ := reads_det r1 h1
      rw [h2]
      simp only []
      have ht := takes_tracks h c1 a hw
      have hc : came (new ++ a.map .got) = came new ++ a := by rw [came_append, came_map]
      have hq := ready_after ht
      rw [hc] at hq
      rw [if_neg (fun x => hno 1 a c1 (by omega) (by omega) r1 (hq.mp x))]
      refine ih ht (by rw [takes_conn]; exact r2) ?_
      intro k' ms' c' x y z
      rw [takes_conn] at z
      rw [hc, List.append_assoc]
      exact hno (k' + 1) (a ++ ms') c' (by omega) (by omega) (reads_cons r1 z)
    · exact absurd ⟨k + 1, _, _, by omega, hr⟩ h1

theorem readyLoop_ready (k : Nat) : ∀ {new : List Ev} {p : Peer}, Tracks (Peer.new ⟨[], 0⟩ hash id) new p → ∀ {k1 : Nat} {later : List Message} {c : Conn},
    0 < k1 → k1 ≤ k → Polls net p.conn k1 later c → ReadyAfter (came new ++ later) →
    (∀ k' ms' c', 0 < k' → k' < k1 → Polls net p.conn k' ms' c' → ¬ ReadyAfter (came new ++ ms')) → ∃ q, readyLoop net k p = (.ok (), q) := by
  induction k with
  | zero => intro new p h k1 later c h1 h2; omega
  | succ k ih =>
    intro new p h k1 later c hk1 hk hr hyes hno
    obtain ⟨j, rfl⟩ : ∃ j, k1 = j + 1 := ⟨k1 - 1, by omega⟩
    obtain ⟨c1, a, b, rfl, r1, r2⟩ := reads_uncons hr
    rw [readyLoop]
    rcases readAndApply_reads net p with ⟨ms, c', h1, -, hw, h2⟩ | ⟨h1, -⟩
    · obtain ⟨rfl, rfl⟩ := reads_det r1 h1
      rw [h2]
      simp only []
      have ht := takes_tracks h c1 a hw
      have hc : came (new ++ a.map .got) = came new ++ a := by rw [came_append, came_map]
      have hq := ready_after ht
      rw [hc] at hq
      by_cases hj : j = 0
      · subst hj
        cases r2
        rw [List.append_nil] at hyes
        rw [if_pos (hq.mpr hyes)]
        exact ⟨_, rfl⟩
      · rw [if_neg (fun x => hno 1 a c1 (by omega) (by omega) r1 (hq.mp x))]
        refine ih ht (k1 := j) (by omega) (by omega) (by rw [takes_conn]; exact r2) (by rw [hc, List.append_assoc]; exact hyes) ?_
        intro k' ms' c' x y z
        rw [takes_conn] at z
        rw [hc, List.append_assoc]
        exact hno (k' + 1) (a ++ ms') c' (by omega) (by omega) (reads_cons r1 z)
    · exact absurd ⟨j + 1, _, _, by omega, hr⟩ h1

/-! ### Opening -/

/-- The peer that has sent its handshake. -/
def hailed (net : Net) (hash id : Bytes) : Peer := (Peer.new ⟨[], 0⟩ hash id).sendMessage net (newHandshake hash id)

theorem hailed_tracks : Tracks (Peer.new ⟨[], 0⟩ hash id) [.sent (newHandshake hash id).asBytes] (hailed net hash id) := by
  have := (tracks_refl (Peer.new ⟨[], 0⟩ hash id)).sent (Conn.writeAll net ⟨[], 0⟩).2 (newHandshake hash id).asBytes
  simpa [hailed, Peer.sendMessage, Peer.write, Peer.new] using this

theorem hailed_conn : (hailed net hash id).conn = afterWrite net ⟨[], 0⟩ := rfl

theorem active_presents {ms : List Message} {c : Conn} (hms : ms = [] ∨ ∃ m, ms = [m]) (hw : ∀ m ∈ ms, FromWire m) :
    (takes (hailed net hash id) ms c).active = true ↔ Presents hash ms := by
  rcases hms with rfl | ⟨m, rfl⟩
  · simp [takes, Presents, hailed, Peer.sendMessage, Peer.write, Peer.new]
  · obtain ⟨body, len, i, hn⟩ := hw m (by simp)
    obtain ⟨h1, -, h3⟩ := newRaw_id hn
    have hsh := (contentOf_shape h3).2.2
    simp only [takes, List.foldl_cons, List.foldl_nil, Peer.applyMessage, Presents]
    constructor
    · intro ha
      cases hc : m.content with
      | handshake x =>
        have hid : m.id = 19 := by rw [h1]; exact hsh.mp ⟨x, hc⟩
        refine ⟨hid, x, rfl, ?_⟩
        simp [Peer.applyState, Peer.applyContent, hid, hc, hailed, Peer.sendMessage, Peer.write, Peer.new] at ha
        exact (of_decide_eq_true ha).symm
      | _ =>
        exfalso
        revert ha
        simp only [Peer.applyState, Peer.applyContent, hc, hailed, Peer.sendMessage, Peer.write, Peer.new]
        repeat' split
        all_goals simp
    · rintro ⟨hid, x, hc, hx⟩
      simp [Peer.applyState, Peer.applyContent, hid, hc, hailed, Peer.sendMessage, Peer.write, Peer.new, hx]

/-- The peer to which the rest of the opening has been sent. -/
def helloed (net : Net) (p : Peer) : Peer := ((p.sendMessage net newInterested).sendMetadataHandshakeRequest net).2

theorem helloed_tracks {p0 p : Peer} {new : List Ev} (h : Tracks p0 new p) :
    Tracks p0 (new ++ [.sent newInterested.asBytes, .sent extensionHandshakeBytes]) (helloed net p) := by
  have := (h.sent (p.conn.writeAll net).2 newInterested.asBytes).sent ((p.conn.writeAll net).2.writeAll net).2 extensionHandshakeBytes
  simpa [helloed, Peer.sendMessage, Peer.sendMetadataHandshakeRequest, Peer.write] using this

theorem helloed_eq (p : Peer) : (p.sendMessage net newInterested).sendMetadataHandshakeRequest net =
    (((afterWrite net p.conn).writeAll net).1, helloed net p) := rfl

theorem helloed_conn (p : Peer) : (helloed net p).conn = ((afterWrite net p.conn).writeAll net).2 := rfl

theorem initPeer_eq : initPeer net (Peer.new ⟨[], 0⟩ hash id) =
    match readAndApply net (hailed net hash id) with
    | (.ok (), p) =>
      if !p.active then (.err .handshake, p)
      else if ((afterWrite net p.conn).writeAll net).1 then readyLoop net 10 (helloed net p) else (.err .handshakeMetadata, helloed net p)
    | (.err e, p) => (.err e, p)
    | (.panic, p) => (.panic, p)
    | (.hang, p) => (.hang, p) := by
  have hg : (Peer.new ⟨[], 0⟩ hash id).sendMessage net (newHandshake (Peer.new ⟨[], 0⟩ hash id).infoHash (Peer.new ⟨[], 0⟩ hash id).id) =
      hailed net hash id := rfl
  unfold initPeer
  simp only [hg]
  generalize readAndApply net (hailed net hash id) = r
  obtain ⟨r, p⟩ := r
  cases r with
  | ok u =>
    simp only []
    split
    · rfl
    · rw [helloed_eq]
      cases ((afterWrite net p.conn).writeAll net).1 <;> rfl
  | _ => rfl

/-- The outcome of opening a connection. -/
def outcome : Option PeerManagerError → Res PeerManagerError Unit
  | none => .ok ()
  | some e => .err e

theorem not_ready_presents {ms : List Message} (hms : ms = [] ∨ ∃ m, ms = [m]) (hp : Presents hash ms) : ¬ ReadyAfter ms := by
  rcases hms with rfl | ⟨m, rfl⟩
  · exact hp.elim
  · obtain ⟨hid, x, hc, -⟩ := hp
    simp [ReadyAfter, sizeAfter, announcedSize, hc]

theorem opens_forward (p : Peer) (o : Option PeerManagerError) (h : initPeer net (Peer.new ⟨[], 0⟩ hash id) = (outcome o, p)) :
    Opens net hash o (came p.log) p.conn := by
  rw [initPeer_eq] at h
  rcases readAndApply_reads net (hailed net hash id) with ⟨ms, c, h1, hms, hw, h2⟩ | ⟨-, h2⟩
  · rw [h2] at h
    simp only [] at h
    rw [hailed_conn] at h1
    have ht := takes_tracks (hailed_tracks (net := net) (hash := hash) (id := id)) c ms hw
    have hact := active_presents (net := net) (hash := hash) (id := id) (c := c) hms hw
    have hcame : came (takes (hailed net hash id) ms c).log = ms := by
      rw [ht.log, came_append, came_append, came_map]; rfl
    by_cases ha : (takes (hailed net hash id) ms c).active = true
    · rw [if_neg (by simp [ha])] at h
      have hp := hact.mp ha
      rw [takes_conn] at h
      have ht2 := helloed_tracks (net := net) ht
      have hc2 : came ([Ev.sent (newHandshake hash id).asBytes] ++ ms.map .got ++ [.sent newInterested.asBytes, .sent extensionHandshakeBytes]) = ms := by
        rw [came_append, came_append, came_map]; simp [came]
      have hconn := helloed_conn (net := net) (takes (hailed net hash id) ms c)
      rw [takes_conn] at hconn
      cases hw1 : ((afterWrite net c).writeAll net).1 with
      | false =>
        rw [hw1] at h
        simp only [Bool.false_eq_true, if_false, Prod.mk.injEq] at h
        obtain ⟨ho, rfl⟩ := h
        have he : o = some .handshakeMetadata := by
          cases o with
          | none => simp [outcome] at ho
          | some e => simpa [outcome] using ho.symm
        subst he
        rw [ht2.log, came_append, hc2, show came (Peer.new ⟨[], 0⟩ hash id).log = [] from rfl, List.nil_append]
        exact .extension h1 hp (by rw [hconn]; exact Prod.ext hw1 rfl)
      | true =>
        rw [hw1] at h
        simp only [if_true] at h
        have hwr : (afterWrite net c).writeAll net = (true, (helloed net (takes (hailed net hash id) ms c)).conn) := by
          rw [hconn]; exact Prod.ext hw1 rfl
        have hnr : ¬ ReadyAfter ms := not_ready_presents hms hp
        rcases readyLoop_out (net := net) 10 ht2 with ⟨later, q, e1, e2, e3, e4⟩ | ⟨k1, later, q, e1, e2, e3, e4, e5, e6, e7⟩ | e
        · rw [e1] at h
          simp only [Prod.mk.injEq] at h
          obtain ⟨ho, rfl⟩ := h
          have he : o = some .peerNotReady := by
            cases o with
            | none => simp [outcome] at ho
            | some e => simpa [outcome] using ho.symm
          subst he
          rw [e3, hc2]
          refine .notReady h1 hp hwr e2 ?_
          intro k ms' c' hk hr
          by_cases h0 : k = 0
          · subst h0; cases hr; simpa using hnr
          · have := e4 k ms' c' (by omega) hk hr
            rwa [hc2] at this
        · rw [e1] at h
          simp only [Prod.mk.injEq] at h
          obtain ⟨ho, rfl⟩ := h
          have he : o = none := by
            cases o with
            | none => rfl
            | some e => simp [outcome] at ho
          subst he
          rw [e5, hc2]
          rw [hc2] at e6
          refine .ready h1 hp hwr e3 e4 e6 ?_
          intro k ms' c' hk hr
          by_cases h0 : k = 0
          · subst h0; cases hr; simpa using hnr
          · have := e7 k ms' c' (by omega) hk hr
            rwa [hc2] at this
        · rw [h] at e
          cases o <;> simp [outcome] at e
    · rw [if_pos (by simpa using ha)] at h
      simp only [Prod.mk.injEq] at h
      obtain ⟨ho, rfl⟩ := h
      have he : o = some .handshake := by
        cases o with
        | none => simp [outcome] at ho
        | some e => simpa [outcome] using ho.symm
      subst he
      rw [hcame, takes_conn]
      exact .handshake h1 (fun x => ha (hact.mpr x))
  · exfalso
    generalize readAndApply net (hailed net hash id) = r at h h2
    obtain ⟨r, q⟩ := r
    rcases h2 with h2 | h2 <;> (simp only at h2; subst h2; cases o <;> simp [outcome] at h)

theorem ready_det {k1 k2 : Nat} {c c1 c2 : Conn} {ms l1 l2 : List Message} (a5 : Polls net c k1 l1 c1) (a6 : ReadyAfter (ms ++ l1))
    (a7 : ∀ k' ms' c', k' < k1 → Polls net c k' ms' c' → ¬ ReadyAfter (ms ++ ms')) (b5 : Polls net c k2 l2 c2) (b6 : ReadyAfter (ms ++ l2))
    (b7 : ∀ k' ms' c', k' < k2 → Polls net c k' ms' c' → ¬ ReadyAfter (ms ++ ms')) : l1 = l2 ∧ c1 = c2 := by
  rcases Nat.lt_trichotomy k1 k2 with hl | rfl | hl
  · exact absurd a6 (b7 _ _ _ hl a5)
  · exact reads_det a5 b5
  · exact absurd b6 (a7 _ _ _ hl b5)

theorem opens_det {o o' : Option PeerManagerError} {ms ms' : List Message} {c c' : Conn} (h : Opens net hash o ms c) (h' : Opens net hash o' ms' c') :
    o = o' ∧ ms = ms' ∧ c = c' := by
  have one : ∀ {a b : List Message} {x y : Conn}, Polls net (afterWrite net ⟨[], 0⟩) 1 a x → Polls net (afterWrite net ⟨[], 0⟩) 1 b y → a = b ∧ x = y :=
    fun h1 h2 => reads_det h1 h2
  cases h with
  | handshake a1 a2 => cases h' with
    | handshake b1 b2 => obtain ⟨rfl, rfl⟩ := one a1 b1; exact ⟨rfl, rfl, rfl⟩
    | extension b1 b2 b3 => obtain ⟨rfl, rfl⟩ := one a1 b1; exact absurd b2 a2
    | notReady b1 b2 b3 b4 b5 => obtain ⟨rfl, rfl⟩ := one a1 b1; exact absurd b2 a2
    | ready b1 b2 b3 b4 b5 b6 b7 => obtain ⟨rfl, rfl⟩ := one a1 b1; exact absurd b2 a2
  | extension a1 a2 a3 => cases h' with
    | handshake b1 b2 => obtain ⟨rfl, rfl⟩ := one a1 b1; exact absurd a2 b2
    | extension b1 b2 b3 =>
      obtain ⟨rfl, rfl⟩ := one a1 b1
      rw [a3] at b3; cases b3
      exact ⟨rfl, rfl, rfl⟩
    | notReady b1 b2 b3 b4 b5 => obtain ⟨rfl, rfl⟩ := one a1 b1; rw [a3] at b3; cases b3
    | ready b1 b2 b3 b4 b5 b6 b7 => obtain ⟨rfl, rfl⟩ := one a1 b1; rw [a3] at b3; cases b3
  | notReady a1 a2 a3 a4 a5 => cases h' with
    | handshake b1 b2 => obtain ⟨rfl, rfl⟩ := one a1 b1; exact absurd a2 b2
    | extension b1 b2 b3 => obtain ⟨rfl, rfl⟩ := one a1 b1; rw [a3] at b3; cases b3
    | notReady b1 b2 b3 b4 b5 =>
      obtain ⟨rfl, rfl⟩ := one a1 b1; rw [a3] at b3; cases b3
      obtain ⟨rfl, rfl⟩ := reads_det a4 b4
      exact ⟨rfl, rfl, rfl⟩
    | ready b1 b2 b3 b4 b5 b6 b7 => obtain ⟨rfl, rfl⟩ := one a1 b1; rw [a3] at b3; cases b3; exact absurd b6 (a5 _ _ _ b4 b5)
  | ready a1 a2 a3 a4 a5 a6 a7 => cases h' with
    | handshake b1 b2 => obtain ⟨rfl, rfl⟩ := one a1 b1; exact absurd a2 b2
    | extension b1 b2 b3 => obtain ⟨rfl, rfl⟩ := one a1 b1; rw [a3] at b3; cases b3
    | notReady b1 b2 b3 b4 b5 => obtain ⟨rfl, rfl⟩ := one a1 b1; rw [a3] at b3; cases b3; exact absurd a6 (b5 _ _ _ a4 a5)
    | ready b1 b2 b3 b4 b5 b6 b7 =>
      obtain ⟨rfl, rfl⟩ := one a1 b1; rw [a3] at b3; cases b3
      obtain ⟨rfl, rfl⟩ := ready_det a5 a6 a7 b5 b6 b7
      exact ⟨rfl, rfl, rfl⟩

theorem opens_backward {o : Option PeerManagerError} {ms : List Message} {c : Conn} (h : Opens net hash o ms c) :
    ∃ p, initPeer net (Peer.new ⟨[], 0⟩ hash id) = (outcome o, p) ∧ came p.log = ms ∧ p.conn = c := by
  suffices hs : ∃ o' p, initPeer net (Peer.new ⟨[], 0⟩ hash id) = (outcome o', p) by
    obtain ⟨o', p, hp⟩ := hs
    have hf := opens_forward p o' hp
    obtain ⟨rfl, rfl, rfl⟩ := opens_det h hf
    exact ⟨p, hp, rfl, rfl⟩
  obtain ⟨m1, c1, hr1⟩ : ∃ ms c, Polls net (afterWrite net ⟨[], 0⟩) 1 ms c := by
    cases h with
    | handshake a => exact ⟨_, _, a⟩
    | extension a => exact ⟨_, _, a⟩
    | notReady a => exact ⟨_, _, a⟩
    | ready a => exact ⟨_, _, a⟩
  rw [initPeer_eq]
  rcases readAndApply_reads net (hailed net hash id) with ⟨ms', c', h1, hms, hw, h2⟩ | ⟨h1, -⟩
  · rw [hailed_conn] at h1
    obtain ⟨rfl, rfl⟩ := reads_det hr1 h1
    rw [h2]
    simp only []
    have ht2 := helloed_tracks (net := net) (takes_tracks (hailed_tracks (net := net) (hash := hash) (id := id)) c1 m1 hw)
    have hc2 : came ([Ev.sent (newHandshake hash id).asBytes] ++ m1.map .got ++ [.sent newInterested.asBytes, .sent extensionHandshakeBytes]) = m1 := by
      rw [came_append, came_append, came_map]; simp [came]
    have hconn := helloed_conn (net := net) (takes (hailed net hash id) m1 c1)
    rw [takes_conn] at hconn
    rw [takes_conn]
    by_cases ha : (takes (hailed net hash id) m1 c1).active = true
    · rw [if_neg (by simp [ha])]
      have hp := (active_presents (net := net) (hash := hash) (id := id) (c := c1) hms hw).mp ha
      have hnr : ¬ ReadyAfter m1 := not_ready_presents hms hp
      cases hw1 : ((afterWrite net c1).writeAll net).1 with
      | false => exact ⟨some .handshakeMetadata, _, rfl⟩
      | true =>
        simp only [if_true]
        have hx : ∀ {c2 : Conn}, (afterWrite net c1).writeAll net = (true, c2) → (helloed net (takes (hailed net hash id) m1 c1)).conn = c2 := by
          intro c2 hx; rw [hconn, hx]
        cases h with
        | handshake a1 a2 => obtain ⟨rfl, rfl⟩ := reads_det hr1 a1; exact absurd hp a2
        | extension a1 a2 a3 => obtain ⟨rfl, rfl⟩ := reads_det hr1 a1; rw [a3] at hw1; cases hw1
        | notReady a1 a2 a3 a4 a5 =>
          obtain ⟨rfl, rfl⟩ := reads_det hr1 a1
          obtain ⟨q, hq⟩ := readyLoop_notReady (net := net) 10 ht2 (by rw [hx a3]; exact a4)
            (by intro k' ms' c' _ b d; rw [hc2]; rw [hx a3] at d; exact a5 k' ms' c' b d)
          exact ⟨some .peerNotReady, q, hq⟩
        | ready a1 a2 a3 a4 a5 a6 a7 =>
          rename_i k
          obtain ⟨rfl, rfl⟩ := reads_det hr1 a1
          have hk : 0 < k := by
            rcases Nat.eq_zero_or_pos k with rfl | hk
            · cases a5; exact absurd (by simpa using a6) hnr
            · exact hk
          obtain ⟨q, hq⟩ := readyLoop_ready (net := net) 10 ht2 hk a4 (by rw [hx a3]; exact a5) (by rw [hc2]; exact a6)
            (by intro k' ms' c' _ b d; rw [hc2]; rw [hx a3] at d; exact a7 k' ms' c' b d)
          exact ⟨none, q, hq⟩
    · rw [if_pos (by simpa using ha)]
      exact ⟨some .handshake, _, rfl⟩
  · exact absurd ⟨1, _, _, by omega, by rw [hailed_conn]; exact hr1⟩ h1

end

/-! ### The transfer -/

theorem bind_noErr {ε α β : Type} {x : Res ε α} {f : α → Res ε β} {e : ε} (h1 : x ≠ .err e) (h2 : ∀ a, f a ≠ .err e) : (x >>= f) ≠ .err e := by
  cases x with
  | ok a => exact h2 a
  | err e' => simpa using h1
  | panic => simp
  | hang => simp

theorem uadd_noErr {ε : Type} (m : Build) (a b : Nat) (e : ε) : (uadd m a b : Res ε Nat) ≠ .err e := by
  unfold uadd; split
  · simp
  · cases m <;> simp

theorem usub_noErr {ε : Type} (m : Build) (a b : Nat) (e : ε) : (usub m a b : Res ε Nat) ≠ .err e := by
  unfold usub; split
  · simp
  · cases m <;> simp

theorem umul_noErr {ε : Type} (m : Build) (a b : Nat) (e : ε) : (umul m a b : Res ε Nat) ≠ .err e := by
  unfold umul; split
  · simp
  · cases m <;> simp

theorem request_noErr {ε : Type} (m : Build) (d : Downloadable) (p : Peer) (i : Nat) (e : ε) : (d.request m p i : Res ε Message) ≠ .err e := by
  cases d with
  | info =>
    simp only [Downloadable.request]
    split
    · unfold newMetadata
      dsimp only
      split <;> simp
    · simp
  | block pl pi tl =>
    refine bind_noErr (umul_noErr _ _ _ _) fun _ => bind_noErr (umul_noErr _ _ _ _) fun _ => bind_noErr ?_ fun _ => by simp
    exact bind_noErr (uadd_noErr _ _ _ _) fun _ => bind_noErr (usub_noErr _ _ _ _) fun _ => by simp

theorem capacity_noErr {ε : Type} (m : Build) (d : Downloadable) (p : Peer) (e : ε) : (d.capacity m p : Res ε Nat) ≠ .err e := by
  have hs : ∀ n k, (stepByLen n k : Res ε Nat) ≠ .err e := by intro n k; unfold stepByLen; split <;> simp
  cases d with
  | info => exact hs _ _
  | block pl pi tl =>
    refine bind_noErr ?_ fun _ => hs _ _
    unfold realPieceLength
    refine bind_noErr (uadd_noErr _ _ _ _) fun _ => bind_noErr (umul_noErr _ _ _ _) fun _ => ?_
    split
    · exact bind_noErr (umul_noErr _ _ _ _) fun _ => usub_noErr _ _ _ _
    · simp

theorem quiet_drop {net : Net} {c c' : Conn} {k : Nat} (h : Quiet net c k c') : ∀ j, j ≤ k → ∃ c1, Quiet net c1 j c' := by
  induction h with
  | none => intro j hj; obtain rfl : j = 0 := by omega
            exact ⟨_, .none _⟩
  | read h r ih =>
    intro j hj
    cases j with
    | zero => exact ⟨_, .none _⟩
    | succ j =>
      obtain ⟨c1, h1⟩ := ih j (by omega)
      exact ⟨c1, .read h1 r⟩
  | write h ih =>
    intro j hj
    obtain ⟨c1, h1⟩ := ih j hj
    exact ⟨c1, .write h1⟩

/-- How a transfer of `cap` blocks ends, `new` being its history. -/
def Ended (net : Net) (d : Downloadable) (cap : Nat) (c0 : Bool) (new : List Ev) (c : Conn) : Res DownloadableError Bytes → Prop
  | .ok b => (received (isAnswer d) new).length = cap ∧ b = (received (isAnswer d) new).flatMap Message.contentData
  | .err .chokedPeer => (received (isAnswer d) new).length < cap ∧ choking c0 new = true
  | .err .idle => (received (isAnswer d) new).length < cap ∧ choking c0 new = false ∧ ∃ c1, Quiet net c1 10 c
  | _ => True

theorem MidInv.answers {m : Build} {d : Downloadable} {cap : Nat} {c0 : Bool} {log0 new : List Ev} {s : DState} (h : MidInv m d cap c0 log0 new s) :
    received d.messageFilter new = received (isAnswer d) new :=
  received_congr fun x hx => filter_eq_isAnswer d (h.wire x hx)

theorem tail_ended {m : Build} {net : Net} {d : Downloadable} {cap : Nat} {c0 : Bool} {log0 new : List Ev} {s : DState} (hcap : 0 < cap)
    (h : MidInv m d cap c0 log0 new s) (hq : ∃ c1, Quiet net c1 s.idle s.peer.conn) :
    (∃ s', execTail m net d s = .again s' ∧ ∃ c1, Quiet net c1 (s'.idle - 1) s'.peer.conn) ∨
    (∃ r p new', execTail m net d s = .done r p ∧ p.log = log0 ++ new' ∧ came new' = came new ∧ Ended net d cap c0 new' p.conn r) := by
  have hb := h.bounded hcap
  have hbuf : s.buf.buffer = received (isAnswer d) new := by
    rw [h.buffer, List.take_of_length_le hb, h.answers]
  rw [h.answers] at hb
  have hfull : s.buf.isFull = true ↔ (received (isAnswer d) new).length = cap := by
    simp [MessageBuffer.isFull, hbuf, h.capacity]
  unfold execTail
  split
  · rename_i hf
    exact .inr ⟨_, _, new, rfl, h.log, rfl, hfull.mp hf, by rw [MessageBuffer.assembleContent, hbuf]⟩
  · rename_i hf
    have hlt : (received (isAnswer d) new).length < cap := by
      have : (received (isAnswer d) new).length ≠ cap := fun x => hf (hfull.mpr x)
      omega
    split
    · rename_i hc
      exact .inr ⟨_, _, new, rfl, h.log, rfl, hlt, by rw [← h.choked]; exact hc⟩
    · rename_i hc
      have hck : choking c0 new = false := by rw [← h.choked]; simpa using hc
      unfold MessageBuffer.requestNextMessage
      by_cases hexp : (s.buf.isLenAsExpected || s.buf.isFull) = true
      · simp only [hexp, if_true]
        split
        · rename_i hi
          refine .inr ⟨_, _, new, rfl, h.log, rfl, hlt, hck, ?_⟩
          obtain ⟨c1, hq⟩ := hq
          exact quiet_drop hq 10 (by omega)
        · exact .inl ⟨_, rfl, hq⟩
      · simp only [hexp]
        have hne := request_noErr (ε := DownloadableError) m d s.peer s.buf.buffer.length
        cases hreq : (d.request m s.peer s.buf.buffer.length : Res DownloadableError Message) with
        | ok msg =>
          simp only []
          have hq' : ∃ c1, Quiet net c1 s.idle (s.peer.sendMessage net msg).conn := by
            obtain ⟨c1, hq⟩ := hq
            exact ⟨c1, .write hq⟩
          have hlog : (s.peer.sendMessage net msg).log = log0 ++ (new ++ [.sent msg.asBytes]) := by
            simp [Peer.sendMessage, Peer.write, h.log]
          simp only [Bool.false_eq_true, if_false]
          split
          · refine .inr ⟨_, _, new ++ [.sent msg.asBytes], rfl, hlog, by simp [came], ?_, ?_, ?_⟩
            · rw [received_sent]; exact hlt
            · rw [choking_sent]; exact hck
            · obtain ⟨c1, hq'⟩ := hq'
              exact quiet_drop hq' 10 (by omega)
          · exact .inl ⟨_, rfl, hq'⟩
        | err e => exact absurd hreq (hne e)
        | panic => exact .inr ⟨_, _, new, rfl, h.log, rfl, trivial⟩
        | hang => exact .inr ⟨_, _, new, rfl, h.log, rfl, trivial⟩

theorem step_ended {m : Build} {net : Net} {d : Downloadable} {cap : Nat} {c0 : Bool} {log0 new : List Ev} {s : DState} (hcap : 0 < cap)
    (h : LoopInv m d cap c0 log0 new s) (hq : ∃ c1, Quiet net c1 (s.idle - 1) s.peer.conn) :
    (∃ s' new', execStep m net d s = .again s' ∧ LoopInv m d cap c0 log0 new' s' ∧ ∃ c1, Quiet net c1 (s'.idle - 1) s'.peer.conn) ∨
    (∃ r p new', execStep m net d s = .done r p ∧ p.log = log0 ++ new' ∧ Ended net d cap c0 new' p.conn r) := by
  have hs := flow_step (net := net) h
  have key : (∃ s', execStep m net d s = .again s' ∧ ∃ c1, Quiet net c1 (s'.idle - 1) s'.peer.conn) ∨
      (∃ r p new', execStep m net d s = .done r p ∧ p.log = log0 ++ new' ∧ Ended net d cap c0 new' p.conn r) := by
    unfold execStep
    rcases readMessage_reads (ε := DownloadableError) net s.peer with ⟨c, h1, h2⟩ | ⟨x, c, hw, h1, h2⟩ | ⟨-, h2⟩
    · rw [h2]
      have hm : MidInv m d cap c0 log0 new { s with peer := { s.peer with conn := c } } := by
        have := h.mid
        exact ⟨this.log, this.capacity, this.buffer, this.bounded, this.expected, this.oneOut, this.choked,
          this.choke, this.steady, this.noData, this.wire, this.writes⟩
      have hq' : ∃ c1, Quiet net c1 s.idle c := by
        obtain ⟨c1, hq⟩ := hq
        rcases Nat.eq_zero_or_pos s.idle with h0 | h0
        · rw [h0]; exact ⟨_, .none _⟩
        · have := Quiet.read hq h1
          rw [Nat.sub_add_cancel h0] at this
          exact ⟨c1, this⟩
      rcases tail_ended (net := net) hcap hm hq' with h3 | ⟨r, p, new', h3, h4, -, h5⟩
      · exact .inl h3
      · exact .inr ⟨r, p, new', h3, h4, h5⟩
    · rw [h2]
      have hm := LoopInv.got (s := { s with peer := { s.peer with conn := c } }) (x := x)
        ⟨h.log, h.capacity, h.buffer, h.expected, h.oneOut, h.room, h.choked, h.noChoke, h.steady, h.wire, h.writes⟩ hw 0
      rcases tail_ended (net := net) hcap hm ⟨_, .none _⟩ with h3 | ⟨r, p, new', h3, h4, -, h5⟩
      · exact .inl h3
      · exact .inr ⟨r, p, new', h3, h4, h5⟩
    · right
      obtain ⟨c, r, hr, -, hcase⟩ := readMessage_cases (ε := DownloadableError) net s.peer
      rw [hr] at h2 ⊢
      rcases h2 with h2 | h2 <;> (simp only at h2; subst h2; exact ⟨_, _, new, rfl, h.log, trivial⟩)
  rcases key with ⟨s', h1, h2⟩ | h1
  · left
    rcases hs with ⟨s'', new', h3, h4, -⟩ | ⟨r, p, new', h3, -, -⟩
    · rw [h1] at h3; cases h3; exact ⟨s', new', h1, h4, h2⟩
    · rw [h1] at h3; cases h3
  · exact .inr h1

theorem run_ended {m : Build} {net : Net} {d : Downloadable} {cap : Nat} {c0 : Bool} {log0 : List Ev} (hcap : 0 < cap) (f : Nat) :
    ∀ {new : List Ev} {s : DState}, LoopInv m d cap c0 log0 new s → (∃ c1, Quiet net c1 (s.idle - 1) s.peer.conn) →
    ∀ {r : Res DownloadableError Bytes} {p : Peer}, execRun m net d f s = .done r p → ∃ new', p.log = log0 ++ new' ∧ Ended net d cap c0 new' p.conn r := by
  induction f with
  | zero => intro new s _ _ r p h; cases h
  | succ f ih =>
    intro new s h hq r p hrun
    rw [execRun] at hrun
    rcases step_ended hcap h hq with ⟨s', new', h1, h2, h3⟩ | ⟨r', p', new', h1, h2, h3⟩
    · rw [h1] at hrun; exact ih h2 h3 hrun
    · rw [h1] at hrun; cases hrun; exact ⟨new', h2, h3⟩

/-- How a transfer ends, in terms of what came in it. -/
theorem execute_ended (m : Build) (net : Net) (d : Downloadable) (f : Nat) (p : Peer) {cap : Nat} (hcap : 0 < cap) :
    ∃ new, (execute m net d f p cap).2.log = p.log ++ new ∧
      Ended net d cap p.choked new (execute m net d f p cap).2.conn (execute m net d f p cap).1 := by
  unfold execute
  cases hrun : execRun m net d f ⟨p, ⟨[], cap, 0⟩, 0⟩ with
  | again s =>
    rcases flow_run (net := net) f (loopInv_init m d cap p) with ⟨s', new, h1, h2, -⟩ | ⟨r, q, new, h1, -⟩
    · rw [hrun] at h1; cases h1; exact ⟨new, h2.log, trivial⟩
    · rw [hrun] at h1; cases h1
  | done r q => exact run_ended hcap f (loopInv_init m d cap p) ⟨_, .none _⟩ hrun

end RustBit
