/-
When exchanges with a peer do not panic.
-/
import Verif.Spec.Crash
import Verif.Proofs.Valid
import Verif.Props.Extension
import Verif.Props.DownloadExact
import Verif.Props.Conversation
import Verif.Proofs.Transfer
import Verif.Props.Info

namespace RustBit
open Spec

/-! ### Reading whole messages -/

theorem _root_.Spec.Whole.append {P : UInt8 → Bytes → Prop} {a b : Bytes} (ha : Whole P a) (hb : Whole P b) : Whole P (a ++ b) := by
  induction ha with
  | nil => exact hb
  | handshake h1 h2 h3 _ ih => rw [List.append_assoc]; exact .handshake h1 h2 h3 ih
  | frame h1 h2 h3 _ ih => rw [List.append_assoc]; exact .frame h1 h2 h3 ih

theorem whole_arrivals {P : UInt8 → Bytes → Prop} {net : Net} (h : SendsWhole P net) (k : Nat) : ∀ t, Whole P (arrivals net t k) := by
  induction k with
  | zero => exact fun _ => .nil
  | succ k ih => exact fun t => (h t).1.append (ih (t + 1))

theorem whole_after {P : UInt8 → Bytes → Prop} {net : Net} (h : SendsWhole P net) {c : Conn} (hc : Whole P c.buf) (k : Nat) : Whole P (c.after net k).buf :=
  hc.append (whole_arrivals h k c.t)

theorem readStream_frame₂ {net : Net} {c : Conn} {id : UInt8} {body frame rest : Bytes}
    (hfr : IsFrame id body frame) (h13 : frame.head? ≠ some 0x13) (h : (c.after net 2).buf = frame ++ rest)
    (hf : NoFailure net c.t 7) :
    readStream net c = (some (body, id, body.length), ⟨rest ++ arrivals net (c.t + 2) 5, c.t + 7⟩) := by
  obtain ⟨len, hl, rfl⟩ := hfr
  have hl4 : len.length = 4 := hl.1
  have hlne : len ≠ [] := by intro e; simp [e] at hl4
  rw [readStream, setReadTimeout_ok (hf 0 (by omega))]
  simp only []
  have e1 : (c.advance net).buf ++ (net (c.advance net).t).arrive = len ++ id :: body ++ rest := by
    rw [← h]; simp [Conn.advance, Conn.after, arrivals]
  have h2 : (c.advance net).advance net = ⟨len ++ id :: body ++ rest, c.t + 2⟩ := by
    rw [← h, advance_eq_after, advance_eq_after, after_after]; rfl
  rw [hasMessages_ok (hf 1 (by omega)) (by rw [e1]; simp [hlne])]
  simp only [h2]
  rw [peek_ok (hf 2 (by omega)) (by simp [hlne])]
  simp only []
  have hh : (List.take 68 (len ++ id :: body ++ rest ++ (net (c.t + 2)).arrive)).head? ≠ some 0x13 := by
    cases len with
    | nil => exact absurd rfl hlne
    | cons a t => simpa using h13
  rw [if_neg (fun x => hh x.2)]
  rw [readFramed_ok (id := id) (rest := rest ++ (net (c.t + 2)).arrive) hl (by simp [Conn.advance]) (by
    intro i hi
    have := hf (3 + i) (by omega)
    simpa [Conn.advance, Nat.add_assoc, Nat.add_left_comm] using this)]
  have : arrivals net (c.t + 2) 5 = (net (c.t + 2)).arrive ++ arrivals net (c.t + 2 + 1) 4 := rfl
  simp [Conn.advance, this]

theorem readStream_handshake₂ {net : Net} {c : Conn} {hs rest : Bytes} (hl : hs.length = 68)
    (h13 : hs.head? = some 0x13) (h : (c.after net 2).buf = hs ++ rest) (hf : NoFailure net c.t 4) :
    readStream net c = (some (hs, 19, 68), ⟨rest ++ arrivals net (c.t + 2) 2, c.t + 4⟩) := by
  have hne : hs ≠ [] := by intro e; simp [e] at hl
  rw [readStream, setReadTimeout_ok (hf 0 (by omega))]
  simp only []
  have e1 : (c.advance net).buf ++ (net (c.advance net).t).arrive = hs ++ rest := by
    rw [← h]; simp [Conn.advance, Conn.after, arrivals]
  have h2 : (c.advance net).advance net = ⟨hs ++ rest, c.t + 2⟩ := by
    rw [← h, advance_eq_after, advance_eq_after, after_after]; rfl
  rw [hasMessages_ok (hf 1 (by omega)) (by rw [e1]; simp [hne])]
  simp only [h2]
  rw [peek_ok (hf 2 (by omega)) (by simp [hne])]
  simp only []
  have ht : List.take 68 (hs ++ rest ++ (net (c.t + 2)).arrive) = hs := by
    rw [List.append_assoc, List.take_left' hl]
  rw [ht, if_pos ⟨hl, h13⟩]
  have e3 : (Conn.advance net ⟨hs ++ rest, c.t + 2⟩).buf ++ (net (Conn.advance net ⟨hs ++ rest, c.t + 2⟩).t).arrive =
      hs ++ (rest ++ arrivals net (c.t + 2) 2) := by
    simp [Conn.advance, arrivals]
  rw [read_ok (hf 3 (by omega)) (by rw [e3]; simp [hne]), e3, List.take_left' hl, List.drop_left' hl]
  simp [padTo_of_length hl, Conn.advance]

/-- From a peer that sends whole messages, messages are read as they were sent. -/
theorem readStream_whole {P : UInt8 → Bytes → Prop} {net : Net} (h : SendsWhole P net) {c : Conn} (hc : Whole P c.buf) :
    Whole P (readStream net c).2.buf ∧ ∀ body id len, (readStream net c).1 = some (body, id, len) → P id body := by
  have hf : ∀ k, NoFailure net c.t k := fun k i _ => (h _).2
  have h2 := whole_after h hc 2
  generalize hb : (c.after net 2).buf = b at h2
  cases h2 with
  | nil =>
    rw [readStream_nothing hb (hf 2)]
    exact ⟨.nil, by simp⟩
  | handshake a1 a2 a3 a4 =>
    rw [readStream_handshake₂ a1 a2 hb (hf 4)]
    refine ⟨a4.append (whole_arrivals h 2 _), ?_⟩
    rintro body id len e
    cases e
    exact a3
  | frame a1 a2 a3 a4 =>
    rw [readStream_frame₂ a1 a2 hb (hf 7)]
    refine ⟨a4.append (whole_arrivals h 5 _), ?_⟩
    rintro body id len e
    cases e
    exact a3

theorem not_lethal_of_proper {id : UInt8} {body : Bytes} (h : Proper id body) : ¬ Lethal id body := by
  rintro (⟨h1, h2⟩ | ⟨h1, h2⟩ | ⟨h1, h2⟩)
  · have := h.1 h1; omega
  · have := h.2.1 h1; omega
  · obtain ⟨ext, v, doc, data, hd, rfl⟩ := h.2.2 h1
    rcases h2 with h2 | ⟨ext', payload, e, hc⟩
    · cases h2
    · simp only [List.cons.injEq] at e
      rw [← e.2] at hc
      exact valid_not_cut hd data hc

/-! ### What is read is the end of what has arrived -/

/-- `Q` holds on, whatever arrives and whatever is read. -/
theorem readStream_closed {net : Net} {Q : Conn → Prop} (h1 : ∀ c, Q c → Q (c.after net 1)) (h2 : ∀ c n, Q c → Q ⟨c.buf.drop n, c.t⟩)
    {c : Conn} (h : Q c) : Q (readStream net c).2 := by
  have hp : ∀ c n, Q c → Q (c.peek net n).2 := fun c n hc => by rw [shrinks_peek]; exact h1 c hc
  have hr : ∀ c n, Q c → Q (c.read net n).2 := fun c n hc => by
    rcases read_cases net c n with e | e <;> rw [e]
    · exact h1 c hc
    · exact h2 _ n (h1 c hc)
  have hpr : ∀ c n, Q c → Q (peekAndRead net c n).2 := by
    intro c n hc
    unfold peekAndRead
    have := hp c n hc
    generalize c.peek net n = x at this
    obtain ⟨r1, c1⟩ := x
    simp only []
    split
    · have := hr c1 n this
      generalize c1.read net n = y at this
      obtain ⟨r2, c2⟩ := y
      simp only []
      split <;> exact this
    · exact this
  have hbl : ∀ k c n, Q c → Q (bodyLoop net k c n).2 := by
    intro k
    induction k with
    | zero => intro c n hc; exact hc
    | succ k ih =>
      intro c n hc
      rw [bodyLoop]
      have := hpr c n hc
      generalize peekAndRead net c n = x at this
      obtain ⟨r, c1⟩ := x
      cases r with
      | none => exact ih c1 n this
      | some b => exact this
  have hfr : ∀ c, Q c → Q (readFramed net c).2 := by
    intro c hc
    unfold readFramed
    have a := hr c 4 hc
    generalize c.read net 4 = x at a
    obtain ⟨r1, c1⟩ := x
    cases r1 with
    | none => exact a
    | some b4 =>
      simp only []
      have b := hr c1 1 a
      generalize c1.read net 1 = y at b
      obtain ⟨r2, c2⟩ := y
      cases r2 with
      | none => exact b
      | some b1 =>
        simp only []
        split
        · exact b
        · have d := hbl 39 c2 (ofBe (padTo 4 b4) - 1) b
          generalize bodyLoop net 39 c2 (ofBe (padTo 4 b4) - 1) = z at d
          obtain ⟨r3, c3⟩ := z
          cases r3 <;> exact d
  unfold readStream Conn.setReadTimeout
  rw [advance_eq_after]
  have q1 := h1 c h
  generalize c.after net 1 = c1 at q1
  cases decide ((net c.t).kind ≠ .fail) with
  | false => exact q1
  | true =>
    simp only []
    have q2 : Q (hasMessages net c1).2 := by
      unfold hasMessages
      have := hp c1 1 q1
      generalize c1.peek net 1 = x at this
      obtain ⟨r, c2⟩ := x
      cases r <;> exact this
    generalize hasMessages net c1 = x at q2
    obtain ⟨r, c2⟩ := x
    cases r with
    | false => exact q2
    | true =>
      simp only []
      have q3 := hp c2 68 q2
      generalize c2.peek net 68 = y at q3
      obtain ⟨r, c3⟩ := y
      cases r with
      | none => exact hfr c3 q3
      | some p =>
        simp only []
        split
        · have q4 := hr c3 68 q3
          generalize c3.read net 68 = z at q4
          obtain ⟨r, c4⟩ := z
          cases r <;> exact q4
        · exact hfr c3 q3

theorem lastOf_after {net : Net} (c : Conn) (h : LastOf net c) : LastOf net (c.after net 1) := by
  unfold LastOf Conn.after
  simp only []
  rw [arrivals_add, Nat.zero_add]
  obtain ⟨t, ht⟩ := h
  exact ⟨t, by rw [← ht]; simp⟩

theorem lastOf_drop {net : Net} (c : Conn) (n : Nat) (h : LastOf net c) : LastOf net ⟨c.buf.drop n, c.t⟩ :=
  (List.drop_suffix n c.buf).trans h

/-! ### Exchanges without panics -/

/-- `Inv` is kept by everything that happens to a peer, and no message that ends the program is read from it. -/
structure KeepsSafe (net : Net) (Inv : Peer → Prop) : Prop where
  write : ∀ p b, Inv p → Inv (p.write net b).2
  read : ∀ p, Inv p → Inv { p with conn := (readStream net p.conn).2 }
  safe : ∀ p body id len, Inv p → (readStream net p.conn).1 = some (body, id, len) → ¬ Lethal id body
  got : ∀ p body id len m, Inv p → (readStream net p.conn).1 = some (body, id, len) → Message.newRaw body len id = .ok m →
    Inv ({ p with conn := (readStream net p.conn).2 }.applyMessage m)

theorem readMessage_keeps {ε : Type} {net : Net} {Inv : Peer → Prop} (h : KeepsSafe net Inv) {p : Peer} (hp : Inv p) :
    (p.readMessage net : Res ε (Option Message) × Peer).1 ≠ .panic ∧ Inv (p.readMessage net : Res ε (Option Message) × Peer).2 ∧
      ∀ m, (p.readMessage net : Res ε (Option Message) × Peer).1 = .ok (some m) →
        Inv ((p.readMessage net : Res ε (Option Message) × Peer).2.applyMessage m) := by
  have h1 := h.read p hp
  have h2 := h.safe p
  have h3 := h.got p
  unfold Peer.readMessage
  generalize readStream net p.conn = x at h1 h2 h3
  obtain ⟨r, c⟩ := x
  cases r with
  | none => exact ⟨by simp, h1, by simp⟩
  | some y =>
    obtain ⟨body, id, len⟩ := y
    have h2 := h2 body id len hp rfl
    have h3 := h3 body id len
    have hx := C24_panics_exactly body len id
    simp only []
    cases hn : Message.newRaw body len id with
    | ok m =>
      refine ⟨by simp, h1, ?_⟩
      rintro m' e
      cases e
      exact h3 m hp rfl hn
    | err e => exact ⟨by simp, h1, by simp⟩
    | panic => exact absurd (hx.mp hn) h2
    | hang => exact ⟨by simp, h1, by simp⟩

theorem readAndApply_keeps {net : Net} {Inv : Peer → Prop} (h : KeepsSafe net Inv) {p : Peer} (hp : Inv p) :
    (readAndApply net p).1 ≠ .panic ∧ Inv (readAndApply net p).2 := by
  obtain ⟨h1, h2, h3⟩ := readMessage_keeps (ε := PeerManagerError) h hp
  unfold readAndApply
  generalize p.readMessage (ε := PeerManagerError) net = x at h1 h2 h3
  obtain ⟨r, q⟩ := x
  cases r with
  | ok o =>
    cases o with
    | none => exact ⟨by simp, h2⟩
    | some m => exact ⟨by simp, h3 m rfl⟩
  | err e => exact ⟨by simp, h2⟩
  | panic => exact absurd rfl h1
  | hang => exact ⟨by simp, h2⟩

theorem readyLoop_keeps {net : Net} {Inv : Peer → Prop} (h : KeepsSafe net Inv) (k : Nat) : ∀ {p : Peer}, Inv p →
    (readyLoop net k p).1 ≠ .panic ∧ Inv (readyLoop net k p).2 ∧ ((readyLoop net k p).1 = .ok () → (readyLoop net k p).2.isReady = true) := by
  induction k with
  | zero => intro p hp; exact ⟨by simp [readyLoop], hp, by simp [readyLoop]⟩
  | succ k ih =>
    intro p hp
    obtain ⟨h1, h2⟩ := readAndApply_keeps h hp
    rw [readyLoop]
    generalize readAndApply net p = x at h1 h2
    obtain ⟨r, q⟩ := x
    cases r with
    | ok u =>
      simp only []
      split
      · rename_i hr; exact ⟨by simp, h2, fun _ => hr⟩
      · exact ih h2
    | err e => exact ⟨by simp, h2, by simp⟩
    | panic => exact absurd rfl h1
    | hang => exact ⟨by simp, h2, by simp⟩

theorem initPeer_keeps {net : Net} {Inv : Peer → Prop} (h : KeepsSafe net Inv) {p : Peer} (hp : Inv p) :
    (initPeer net p).1 ≠ .panic ∧ Inv (initPeer net p).2 ∧ ((initPeer net p).1 = .ok () → (initPeer net p).2.isReady = true) := by
  unfold initPeer
  have h0 : Inv (p.sendMessage net (newHandshake p.infoHash p.id)) := h.write p _ hp
  obtain ⟨h1, h2⟩ := readAndApply_keeps h h0
  simp only []
  generalize readAndApply net (p.sendMessage net (newHandshake p.infoHash p.id)) = x at h1 h2
  obtain ⟨r, q⟩ := x
  cases r with
  | ok u =>
    simp only []
    split
    · exact ⟨by simp, h2, by simp⟩
    · have h3 : Inv (q.sendMessage net newInterested) := h.write q _ h2
      have h4 : Inv ((q.sendMessage net newInterested).sendMetadataHandshakeRequest net).2 := h.write _ _ h3
      generalize (q.sendMessage net newInterested).sendMetadataHandshakeRequest net = y at h4
      obtain ⟨b, q'⟩ := y
      cases b with
      | false => exact ⟨by simp, h4, by simp⟩
      | true => exact readyLoop_keeps h 10 h4
  | err e => exact ⟨by simp, h2, by simp⟩
  | panic => exact absurd rfl h1
  | hang => exact ⟨by simp, h2, by simp⟩

/-- A flow without a panic, which keeps `Inv` and the size of the buffer. -/
def SafeFlow (Inv : Peer → Prop) (cap : Nat) : Flow → Prop
  | .again s => Inv s.peer ∧ s.buf.capacity = cap ∧ s.buf.buffer.length ≤ cap
  | .done r _ => r ≠ .panic

theorem execTail_keeps {net : Net} {Inv : Peer → Prop} (h : KeepsSafe net Inv) {m : Build} {d : Downloadable} {cap : Nat}
    (hreq : ∀ p i, Inv p → i < cap → (d.request m p i : Res DownloadableError Message) ≠ .panic) {s : DState} (hs : SafeFlow Inv cap (.again s)) :
    SafeFlow Inv cap (execTail m net d s) := by
  obtain ⟨h1, h2, h3⟩ := hs
  unfold execTail
  split
  · simp [SafeFlow]
  rename_i hfull
  split
  · simp [SafeFlow]
  have hlt : s.buf.buffer.length < cap := by
    have : s.buf.buffer.length ≠ s.buf.capacity := by simpa [MessageBuffer.isFull] using hfull
    omega
  have hr := hreq s.peer _ h1 hlt
  unfold MessageBuffer.requestNextMessage
  cases hc : (s.buf.isLenAsExpected || s.buf.isFull) with
  | true =>
    simp only [if_true]
    split
    · simp [SafeFlow]
    · exact ⟨h1, h2, h3⟩
  | false =>
    simp only [Bool.false_eq_true, if_false]
    generalize d.request m s.peer s.buf.buffer.length = x at hr
    cases x with
    | ok msg =>
      simp only []
      split
      · simp [SafeFlow]
      · exact ⟨h.write _ _ h1, h2, h3⟩
    | err e => simp [SafeFlow]
    | panic => exact absurd rfl hr
    | hang => simp [SafeFlow]

theorem execStep_keeps {net : Net} {Inv : Peer → Prop} (h : KeepsSafe net Inv) {m : Build} {d : Downloadable} {cap : Nat}
    (hreq : ∀ p i, Inv p → i < cap → (d.request m p i : Res DownloadableError Message) ≠ .panic) {s : DState} (hs : SafeFlow Inv cap (.again s)) :
    SafeFlow Inv cap (execStep m net d s) := by
  obtain ⟨h0, hc, hl⟩ := hs
  obtain ⟨h1, h2, h3⟩ := readMessage_keeps (ε := DownloadableError) h h0
  unfold execStep
  generalize s.peer.readMessage (ε := DownloadableError) net = x at h1 h2 h3
  obtain ⟨r, q⟩ := x
  cases r with
  | ok o =>
    cases o with
    | none => exact execTail_keeps h hreq ⟨h2, hc, hl⟩
    | some msg =>
      refine execTail_keeps h hreq ⟨h3 msg rfl, ?_, ?_⟩
      · simp only [MessageBuffer.pushMessage]; split <;> exact hc
      · simp only [MessageBuffer.pushMessage]
        split
        · rename_i hx
          have : s.buf.buffer.length ≠ s.buf.capacity := by
            simp only [Bool.and_eq_true, Bool.not_eq_true', MessageBuffer.isFull, beq_eq_false_iff_ne] at hx
            exact hx.2
          simp only [List.length_append, List.length_singleton]
          omega
        · exact hl
  | err e => simp [SafeFlow]
  | panic => exact absurd rfl h1
  | hang => simp [SafeFlow]

theorem execRun_keeps {net : Net} {Inv : Peer → Prop} (h : KeepsSafe net Inv) {m : Build} {d : Downloadable} {cap : Nat}
    (hreq : ∀ p i, Inv p → i < cap → (d.request m p i : Res DownloadableError Message) ≠ .panic) (f : Nat) :
    ∀ {s : DState}, SafeFlow Inv cap (.again s) → SafeFlow Inv cap (execRun m net d f s) := by
  induction f with
  | zero => intro s hs; exact hs
  | succ f ih =>
    intro s hs
    have := execStep_keeps h hreq hs
    rw [execRun]
    generalize execStep m net d s = x at this
    cases x with
    | again s' => exact ih this
    | done r p => exact this

theorem execute_keeps {net : Net} {Inv : Peer → Prop} (h : KeepsSafe net Inv) {m : Build} {d : Downloadable} {cap : Nat}
    (hreq : ∀ p i, Inv p → i < cap → (d.request m p i : Res DownloadableError Message) ≠ .panic) (f : Nat) {p : Peer} (hp : Inv p) :
    (execute m net d f p cap).1 ≠ .panic := by
  have := execRun_keeps h hreq f (s := ⟨p, ⟨[], cap, 0⟩, 0⟩) ⟨hp, rfl, Nat.zero_le _⟩
  unfold execute
  generalize execRun m net d f ⟨p, ⟨[], cap, 0⟩, 0⟩ = x at this
  cases x with
  | again s => simp
  | done r q => exact this

/-- Blocks of a piece can be asked for, and counted. -/
theorem block_requests (m : Build) {pl idx total : Nat} (p : Peer) (hin : idx * pl ≤ total) (ho : pl * (idx + 1) < 2 ^ 64) (ht : total < 2 ^ 64) (hi : idx < 2 ^ 32) :
    ∃ cap, ((Downloadable.block pl idx total).capacity m p : Res DownloadableError Nat) = .ok cap ∧
      ∀ q i, i < cap → ((Downloadable.block pl idx total).request m q i : Res DownloadableError Message) ≠ .panic := by
  cases m with
  | release =>
    refine ⟨_, C34_count_release pl idx total p hi ht, fun q i _ => ?_⟩
    simp only [Downloadable.request]
    rw [C34_request_release pl idx total i ht]
    simp
  | debug =>
    have hc : pl * idx = idx * pl := Nat.mul_comm _ _
    refine ⟨_, (C34_count_debug pl idx total p hi ht).trans (if_pos ⟨ho, by omega⟩), fun q i hlt => ?_⟩
    simp only [Downloadable.request]
    rw [C34_request_debug pl idx total i ht, if_pos (by rw [hc] at hlt; generalize idx * pl = P at *; omega)]
    simp

/-- An attempt to download a piece does not panic. -/
theorem downloadRun_keeps {net : Net} {Inv : Peer → Prop} (h : KeepsSafe net Inv) (sha : Bytes → Bytes) (m : Build) (f : Nat) (peerId : Bytes) (info : Info)
    {idx : Nat} {n : Nat} (htot : (info.getTotalLength m : Res PeerManagerError Nat) = .ok n) (hin : idx * info.pieceLength ≤ n)
    (ho : info.pieceLength * (idx + 1) < 2 ^ 64) (ht : n < 2 ^ 64) (hi : idx < 2 ^ 32) (hk : idx < info.pieces.length / 20)
    (h0 : Inv (Peer.new ⟨[], 0⟩ (info.computeInfoHash sha) peerId)) :
    (downloadRun sha m net f peerId info idx).1 ≠ .panic := by
  unfold downloadRun
  obtain ⟨h1, h2, -⟩ := initPeer_keeps h h0
  generalize initPeer net (Peer.new ⟨[], 0⟩ (info.computeInfoHash sha) peerId) = x at h1 h2
  obtain ⟨r, q⟩ := x
  cases r with
  | ok u =>
    simp only [htot]
    obtain ⟨cap, hcap, hreq⟩ := block_requests m q hin ho ht hi
    have hex := execute_keeps h (d := .block info.pieceLength idx n) (m := m) (fun p i _ hlt => hreq p i hlt) f h2
    simp only [Downloadable.download, hcap]
    generalize execute m net (.block info.pieceLength idx n) f q cap = y at hex
    obtain ⟨r, q'⟩ := y
    cases r with
    | ok piece =>
      simp only [(C15_verify_piece sha info piece idx).1 hk, Res.bind_ok]
      split <;> simp
    | err e => simp
    | panic => exact absurd rfl hex
    | hang => simp
  | err e => simp
  | panic => exact absurd rfl h1
  | hang => simp

end RustBit
