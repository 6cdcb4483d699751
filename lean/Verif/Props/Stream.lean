/-
Properties C28 - C30: reading messages from a connection.
-/
import Verif.Proofs.Stream
import Verif.Model.Peer

namespace RustBit
open Spec

/-! ### C28 -/

/-- `n` successive calls of `read_stream`, in order. -/
def readTimes (net : Net) : Nat → Conn → List (Option (Bytes × UInt8 × Nat)) × Conn
  | 0, c => ([], c)
  | n + 1, c =>
    let r := readStream net c
    let rs := readTimes net n r.2
    (r.1 :: rs.1, rs.2)

/-- C28, for messages whose length prefix does not begin with byte 19: when the whole message is in the
receive buffer and no call fails, `read_stream` returns its id and body and leaves exactly the following
bytes (and those arriving meanwhile). Missing: messages of 318767104 bytes and more, whose prefix
begins with 19 and which are taken for handshakes (refuted below). -/
theorem C28_message_partial (net : Net) (c : Conn) (id : UInt8) (body frame rest : Bytes)
    (hfr : IsFrame id body frame) (h13 : frame.head? ≠ some 19) (h : c.buf = frame ++ rest)
    (hf : NoFailure net c.t 7) :
    readStream net c = (some (body, id, body.length), ⟨rest ++ arrivals net c.t 7, c.t + 7⟩) :=
  readStream_frame hfr h13 h hf

/-- C28 for handshakes. -/
theorem C28_handshake (net : Net) (c : Conn) (flags hash peerId hs rest : Bytes)
    (hh : IsHandshake flags hash peerId hs) (h : c.buf = hs ++ rest) (hf : NoFailure net c.t 4) :
    readStream net c = (some (hs, 19, 68), ⟨rest ++ arrivals net c.t 4, c.t + 4⟩) := by
  obtain ⟨h1, h2, h3, e⟩ := hh
  have hn : ("BitTorrent protocol".toUTF8.toList : Bytes) = b!"BitTorrent protocol" := by decide +kernel
  rw [hn] at e
  exact readStream_handshake (by rw [e]; simp [h1, h2, h3]) (by rw [e]; rfl) h hf

/-- C28: a sequence of buffered messages is read back in order, nothing else being consumed. -/
theorem C28_sequence_partial (net : Net) (hf : ∀ t, (net t).kind ≠ .fail) (rest : Bytes) :
    ∀ (msgs : List (UInt8 × Bytes × Bytes)) (c : Conn),
      (∀ m ∈ msgs, IsFrame m.1 m.2.1 m.2.2 ∧ m.2.2.head? ≠ some 19) →
      c.buf = (msgs.map (fun m => m.2.2)).flatten ++ rest →
      ∃ c', readTimes net msgs.length c =
          (msgs.map (fun m => some (m.2.1, m.1, m.2.1.length)), c') ∧
        c'.buf = rest ++ arrivals net c.t (7 * msgs.length) := by
  intro msgs
  induction msgs generalizing rest with
  | nil => intro c _ hb; exact ⟨c, rfl, by simpa [arrivals] using hb⟩
  | cons m t ih =>
    intro c hm hb
    obtain ⟨h1, h2⟩ := hm m (by simp)
    have hr := readStream_frame (net := net) (rest := (t.map (fun m => m.2.2)).flatten ++ rest) h1 h2
      (by simpa using hb) (fun i _ => hf _)
    simp only [List.length_cons, readTimes, hr]
    obtain ⟨c', e1, e2⟩ := ih (rest ++ arrivals net c.t 7)
      ⟨(t.map (fun m => m.2.2)).flatten ++ rest ++ arrivals net c.t 7, c.t + 7⟩
      (fun m hm' => hm m (by simp [hm'])) (by simp)
    refine ⟨c', by rw [e1]; rfl, ?_⟩
    rw [e2, Nat.mul_add, Nat.mul_one, Nat.add_comm (7 * t.length) 7, arrivals_add]
    simp

/-- A schedule on which nothing more arrives. -/
def quietNet : Net := fun _ => ⟨[], .up⟩

example : IsFrame 1 [] [0, 0, 0, 1, 1] ∧ ([0, 0, 0, 1, 1] : Bytes).head? ≠ some 19 ∧
    NoFailure quietNet 0 7 := by
  refine ⟨⟨[0, 0, 0, 1], ⟨rfl, rfl⟩, rfl⟩, by decide, fun i _ => by simp [quietNet]⟩

theorem huge_taken_for_handshake (body : Bytes) (hl : body.length + 1 = 0x13000001) :
    IsFrame 7 body (beU32 0x13000001 ++ 7 :: body) ∧
    (readStream quietNet ⟨beU32 0x13000001 ++ 7 :: body, 0⟩).1 =
      some ((beU32 0x13000001 ++ 7 :: body).take 68, 19, 68) := by
  refine ⟨⟨beU32 0x13000001, by rw [hl]; exact isU32_beU32 _ (by decide), rfl⟩, ?_⟩
  have hlen : (beU32 0x13000001 ++ 7 :: body).length = 4 + 0x13000001 := by
    rw [List.length_append, beU32_length, List.length_cons, hl]
  rw [readStream_handshake (hs := (beU32 0x13000001 ++ 7 :: body).take 68)
    (rest := (beU32 0x13000001 ++ 7 :: body).drop 68)
    (by rw [List.length_take, hlen]; decide) (by rfl) (List.take_append_drop 68 _).symm
    (fun i _ => by simp [quietNet])]

/-- The full C28 is false: a message with a body of 0x13000000 bytes is not returned; its first 68 bytes
are taken for a handshake. -/
theorem C28_refuted_huge : ∃ (net : Net) (c : Conn) (id : UInt8) (body : Bytes),
    IsFrame id body c.buf ∧ NoFailure net c.t 7 ∧ (readStream net c).1 = some (c.buf.take 68, 19, 68) := by
  obtain ⟨body, hl⟩ : ∃ body : Bytes, body.length = 0x13000000 :=
    ⟨List.replicate 0x13000000 0, List.length_replicate⟩
  obtain ⟨h1, h2⟩ := huge_taken_for_handshake body (by omega)
  exact ⟨quietNet, _, 7, body, h1, fun i _ => by simp [quietNet], h2⟩

/-! ### C29 -/

/-- The full C29 is false, for every following byte: a keep-alive swallows the first byte of the next
message and reports it as the id of an empty message. -/
theorem C29_refuted_swallows (net : Net) (c : Conn) (x : UInt8) (rest : Bytes)
    (h : c.buf = [0, 0, 0, 0] ++ x :: rest) (hf : NoFailure net c.t 5) :
    readStream net c = (some ([], x, 0), ⟨rest ++ arrivals net c.t 5, c.t + 5⟩) := by
  rw [readStream, setReadTimeout_ok (hf 0 (by omega))]
  simp only []
  rw [hasMessages_ok (hf 1 (by omega)) (by simp [Conn.advance, h])]
  simp only []
  rw [peek_ok (hf 2 (by omega)) (by simp [Conn.advance, h])]
  simp only []
  rw [if_neg (fun e => by
    have := e.2
    simp [Conn.advance, h] at this)]
  rw [readFramed, read_ok (hf 3 (by omega)) (by simp [Conn.advance, h])]
  simp only []
  rw [read_ok (hf 4 (by omega)) (by simp [Conn.advance, h])]
  simp only [Conn.advance, h, List.cons_append, List.nil_append, List.take_succ_cons, List.take_zero,
    List.drop_succ_cons, List.drop_zero]
  have e1 : padTo 1 [x] = [x] := by simp [padTo]
  have e2 : ofBe (padTo 4 [0, 0, 0, 0]) = 0 := rfl
  rw [e1, e2, if_pos rfl]
  simp [arrivals]

/-- The full C29 is false: after a keep-alive, the next message (of fewer than 2^24 bytes, so that its
first byte is 0) makes an unchoked peer choked. -/
theorem C29_refuted_choked (net : Net) (p : Peer) (rest : Bytes)
    (h : p.conn.buf = [0, 0, 0, 0] ++ 0 :: rest) (hf : NoFailure net p.conn.t 5) :
    ∃ p', readAndApply net p = (.ok (), p') ∧ p'.choked = true := by
  rw [readAndApply, Peer.readMessage, C29_refuted_swallows net p.conn 0 rest h hf]
  exact ⟨_, rfl, rfl⟩

example : ∃ p : Peer, p.choked = false ∧ p.conn.buf = [0, 0, 0, 0] ++ 0 :: [0, 0, 1, 1] :=
  ⟨{ Peer.new ⟨[0, 0, 0, 0, 0, 0, 0, 1, 1], 0⟩ [] [] with choked := false }, rfl, rfl⟩

/-- C29, for a keep-alive that is followed by nothing until the next read of one byte times out: it is
consumed without any effect. Missing: keep-alives directly followed by other messages (refuted). -/
theorem C29_isolated_partial (net : Net) (c : Conn) (h : c.buf = [0, 0, 0, 0])
    (hq : ∀ i, i < 5 → net (c.t + i) = ⟨[], .up⟩) : readStream net c = (none, ⟨[], c.t + 5⟩) := by
  have hf : ∀ i, i < 5 → (net (c.t + i)).kind ≠ .fail := fun i hi => by rw [hq i hi]; simp
  have ha : ∀ i, i < 5 → (net (c.t + i)).arrive = [] := fun i hi => by rw [hq i hi]
  rw [readStream, setReadTimeout_ok (hf 0 (by omega))]
  simp only []
  rw [hasMessages_ok (hf 1 (by omega)) (by simp [Conn.advance, h])]
  simp only []
  rw [peek_ok (hf 2 (by omega)) (by simp [Conn.advance, h])]
  simp only []
  rw [if_neg (fun e => by
    have := e.2
    simp [Conn.advance, h] at this)]
  rw [readFramed, read_ok (hf 3 (by omega)) (by simp [Conn.advance, h])]
  have a0 : (net c.t).arrive = [] := ha 0 (by omega)
  have a1 : (net (c.t + 1)).arrive = [] := ha 1 (by omega)
  have a2 : (net (c.t + 1 + 1)).arrive = [] := ha 2 (by omega)
  have a3 : (net (c.t + 1 + 1 + 1)).arrive = [] := ha 3 (by omega)
  have e4 : net (c.t + 1 + 1 + 1 + 1) = ⟨[], .up⟩ := hq 4 (by omega)
  simp [Conn.advance, h, a0, a1, a2, a3, Conn.read, Conn.peek, e4]

example : ∀ i, i < 5 → quietNet (0 + i) = ⟨[], .up⟩ := fun _ _ => rfl

/-- What a read makes of a keep-alive, for every schedule: `rest` is what has come after it so far. -/
theorem C29_exact (net : Net) (c : Conn) (rest : Bytes) (h : c.buf = [0, 0, 0, 0] ++ rest) :
    readStream net c =
      if (net c.t).kind = .fail then (none, ⟨c.buf ++ arrivals net c.t 1, c.t + 1⟩)
      else if (net (c.t + 1)).kind = .fail then (none, ⟨c.buf ++ arrivals net c.t 2, c.t + 2⟩)
      else if (net (c.t + 3)).kind = .fail then (none, ⟨c.buf ++ arrivals net c.t 4, c.t + 4⟩)
      else if (net (c.t + 4)).kind = .fail then (none, ⟨rest ++ arrivals net c.t 5, c.t + 5⟩)
      else match rest ++ arrivals net c.t 5 with
        | [] => (if (net (c.t + 4)).kind = .eof then some ([], 0, 0) else none, ⟨[], c.t + 5⟩)
        | x :: l => (some ([], x, 0), ⟨l, c.t + 5⟩) := by
  have framed : ∀ c2 : Conn, c2.t = c.t + 3 → c2.buf = c.buf ++ arrivals net c.t 3 → readFramed net c2 =
      if (net (c.t + 3)).kind = .fail then (none, ⟨c.buf ++ arrivals net c.t 4, c.t + 4⟩)
      else if (net (c.t + 4)).kind = .fail then (none, ⟨rest ++ arrivals net c.t 5, c.t + 5⟩)
      else match rest ++ arrivals net c.t 5 with
        | [] => (if (net (c.t + 4)).kind = .eof then some ([], 0, 0) else none, ⟨[], c.t + 5⟩)
        | x :: l => (some ([], x, 0), ⟨l, c.t + 5⟩) := by
    rintro ⟨b2, t2⟩ ht hb
    simp only at ht hb
    subst ht hb
    by_cases h3 : (net (c.t + 3)).kind = .fail
    · rw [if_pos h3]
      simp [readFramed, Conn.read, Conn.peek, h3, Conn.advance, arrivals]
    · rw [if_neg h3, readFramed, read_ok h3 (by simp [h])]
      have e5 : ∀ b : Bytes, (b ++ arrivals net c.t 3 ++ (net (c.t + 3)).arrive) ++ (net (c.t + 3 + 1)).arrive = b ++ arrivals net c.t 5 := by
        intro b
        simp [arrivals]
      have e4 := e5 rest
      simp only [h, List.cons_append, List.nil_append, List.take_succ_cons, List.take_zero, List.drop_succ_cons, List.drop_zero]
      have e2 : ofBe (padTo 4 [0, 0, 0, 0]) = 0 := rfl
      rw [e2]
      by_cases h4 : (net (c.t + 4)).kind = .fail
      · have h4' : (net (c.t + 3 + 1)).kind = .fail := h4
        rw [if_pos h4]
        simp only [Conn.read, Conn.peek, h4', Conn.advance]
        rw [e4]
      · rw [if_neg h4]
        cases hm : rest ++ arrivals net c.t 5 with
        | nil =>
          rw [hm] at e4
          have h4' : ¬ (net (c.t + 3 + 1)).kind = .fail := h4
          cases hk : (net (c.t + 3 + 1)).kind with
          | fail => exact absurd hk h4'
          | up =>
            have hk' : (net (c.t + 4)).kind = .up := hk
            simp only [Conn.read, Conn.peek, hk, Conn.advance, e4, if_true, hk']
            rfl
          | eof =>
            have hk' : (net (c.t + 4)).kind = .eof := hk
            simp only [Conn.read, Conn.peek, hk, Conn.advance, e4, if_true, hk']
            rfl
        | cons x l =>
          rw [hm] at e4
          rw [read_ok h4 (by rw [e4]; simp), e4]
          simp [padTo]
  rw [readStream]
  by_cases h0 : (net c.t).kind = .fail
  · simp [Conn.setReadTimeout, h0, Conn.advance, arrivals]
  · rw [if_neg h0, setReadTimeout_ok h0]
    simp only []
    by_cases h1 : (net (c.t + 1)).kind = .fail
    · rw [if_pos h1]
      simp [hasMessages, Conn.peek, h1, Conn.advance, arrivals]
    · rw [if_neg h1, hasMessages_ok h1 (by simp [Conn.advance, h])]
      simp only []
      by_cases h2 : (net (c.t + 2)).kind = .fail
      · have h2' : (net ((c.advance net).advance net).t).kind = .fail := h2
        simp only [Conn.peek, h2']
        exact framed _ rfl (by simp [Conn.advance, arrivals])
      · rw [peek_ok h2 (by simp [Conn.advance, h])]
        simp only []
        rw [if_neg (fun e => by
          have := e.2
          simp [Conn.advance, h] at this)]
        exact framed _ rfl (by simp [Conn.advance, arrivals])

/-- C29, exactly: a keep-alive is taken, alone and without any effect, just if the calls of the read succeed, other than the one that looks for a handshake, and the last one
times out with nothing there, or fails. -/
theorem C29_ignored_iff (net : Net) (c : Conn) (rest : Bytes) (h : c.buf = [0, 0, 0, 0] ++ rest) :
    readStream net c = (none, ⟨rest ++ arrivals net c.t 5, c.t + 5⟩) ↔
      (net c.t).kind ≠ .fail ∧ (net (c.t + 1)).kind ≠ .fail ∧ (net (c.t + 3)).kind ≠ .fail ∧
      ((net (c.t + 4)).kind = .fail ∨ (net (c.t + 4)).kind = .up ∧ rest ++ arrivals net c.t 5 = []) := by
  rw [C29_exact net c rest h]
  split
  · rename_i h0; simp [h0]
  · rename_i h0
    split
    · rename_i h1; simp [h1]
    · rename_i h1
      split
      · rename_i h3; simp [h3]
      · rename_i h3
        split
        · rename_i h4; simp [h0, h1, h3, h4]
        · rename_i h4
          cases hm : rest ++ arrivals net c.t 5 with
          | nil =>
            cases hk : (net (c.t + 4)).kind with
            | fail => exact absurd hk h4
            | up => simp [h0, h1, h3]
            | eof => simp
          | cons x l => simp [h4]

/-- Both outcomes occur. -/
example : readStream quietNet ⟨[0, 0, 0, 0], 0⟩ = (none, ⟨[], 5⟩) ∧ readStream quietNet ⟨[0, 0, 0, 0, 0, 0, 0, 1, 1], 0⟩ = (some ([], 0, 0), ⟨[0, 0, 1, 1], 5⟩) :=
  ⟨rfl, rfl⟩

/-! ### C30 -/

/-- C30, once the five header bytes of a message have arrived: however the rest is split, delayed or
lost, `read_stream` returns that message, having consumed exactly its bytes, or returns nothing.
Missing: schedules on which the header itself is split (refuted below). -/
theorem C30_segmentation_partial (net : Net) (c : Conn) (id : UInt8) (body frame : Bytes)
    (hfr : IsFrame id body frame) (h13 : frame.head? ≠ some 19) (h : Delivers net c frame)
    (h5 : 5 ≤ c.buf.length) :
    (∃ c', readStream net c = (none, c')) ∨
    (∃ n r, readStream net c = (some (body, id, body.length), ⟨r, c.t + n⟩) ∧
      c.buf ++ arrivals net c.t n = frame ++ r) :=
  readStream_cases hfr h13 h h5

/-- A schedule delivering the given bytes, one segment per call, then nothing. -/
def segList (segs : List Bytes) : Net := fun t => ⟨segs.getD t [], .up⟩

/-- Non-vacuity: a 7-byte message whose last two bytes arrive during the fourth attempt to read the body. -/
example : IsFrame 4 [9, 8] [0, 0, 0, 3, 4, 9, 8] ∧
    readStream (segList [[], [], [], [], [], [], [], [], [9], [8]]) ⟨[0, 0, 0, 3, 4], 0⟩ =
      (some ([9, 8], 4, 2), ⟨[], 11⟩) :=
  ⟨⟨[0, 0, 0, 3], ⟨rfl, rfl⟩, rfl⟩, by decide +kernel⟩

/-- The full C30 is false: an "unchoke" message (00 00 00 01 01) of which first only two bytes arrive is
returned as a "choke" message. -/
theorem C30_refuted_split_header :
    (readStream (segList [[0, 0], [], [], [], [0, 1, 1]]) ⟨[], 0⟩).1 = some ([], 0, 0) ∧
    Message.newRaw [] 0 0 = .ok ⟨0, 0, .nothing⟩ := ⟨by decide +kernel, rfl⟩

/-- The full C30 is false: a handshake that arrives in two segments is lost. -/
theorem C30_refuted_split_handshake : ∃ (hs : Bytes),
    IsHandshake [0, 0, 0, 0, 0, 0x10, 0, 0] (List.replicate 20 1) (List.replicate 20 2) hs ∧
    (readTimes (segList [hs.take 40, [], [], [], [], hs.drop 40]) 2 ⟨[], 0⟩).1 = [none, none] := by
  refine ⟨(newHandshake (List.replicate 20 1) (List.replicate 20 2)).asBytes, ⟨rfl, rfl, rfl, ?_⟩, ?_⟩
  · decide +kernel
  · decide +kernel

end RustBit
