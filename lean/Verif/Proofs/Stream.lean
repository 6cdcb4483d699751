/- Lemmas about reading from a connection. -/
import Verif.Spec.Stream
import Verif.Proofs.Messages

namespace RustBit
open Spec

theorem arrivals_add (net : Net) (t j k : Nat) :
    arrivals net t (j + k) = arrivals net t j ++ arrivals net (t + j) k := by
  induction j generalizing t with
  | zero => simp [arrivals]
  | succ j ih =>
    rw [Nat.add_right_comm, arrivals, arrivals, ih, List.append_assoc, Nat.add_assoc, Nat.add_comm 1 j]

theorem arrivals_one (net : Net) (t : Nat) : arrivals net t 1 = (net t).arrive := by
  simp [arrivals]

/-- The buffer after a call, in terms of arrivals. -/
theorem peek_ok {net : Net} {c : Conn} {n : Nat} (hk : (net c.t).kind ≠ .fail)
    (hb : c.buf ++ (net c.t).arrive ≠ []) :
    c.peek net n = (some ((c.buf ++ (net c.t).arrive).take n), c.advance net) := by
  unfold Conn.peek
  cases h : (net c.t).kind with
  | up => simp only [Conn.advance, hb, if_false]
  | eof => simp only [Conn.advance]
  | fail => exact absurd h hk

theorem read_ok {net : Net} {c : Conn} {n : Nat} (hk : (net c.t).kind ≠ .fail)
    (hb : c.buf ++ (net c.t).arrive ≠ []) :
    c.read net n = (some ((c.buf ++ (net c.t).arrive).take n),
      ⟨(c.buf ++ (net c.t).arrive).drop n, c.t + 1⟩) := by
  rw [Conn.read, peek_ok hk hb]
  rfl

/-- A call with an empty target moves no bytes, whatever its outcome. -/
theorem peek_zero (net : Net) (c : Conn) :
    ∃ r, c.peek net 0 = (r, c.advance net) ∧ (r = none ∨ r = some []) := by
  unfold Conn.peek
  cases h : (net c.t).kind with
  | up =>
    by_cases hb : (c.advance net).buf = []
    · simp [hb]
    · simp [hb]
  | eof => simp
  | fail => simp

theorem read_zero (net : Net) (c : Conn) :
    ∃ r, c.read net 0 = (r, c.advance net) ∧ (r = none ∨ r = some []) := by
  obtain ⟨r, h, hr⟩ := peek_zero net c
  rw [Conn.read, h]
  rcases hr with rfl | rfl
  · exact ⟨none, rfl, .inl rfl⟩
  · exact ⟨some [], rfl, .inr rfl⟩

theorem peekAndRead_zero (net : Net) (c : Conn) :
    peekAndRead net c 0 = (some [], ⟨c.buf ++ arrivals net c.t 2, c.t + 2⟩) := by
  obtain ⟨r, h, hr⟩ := peek_zero net c
  obtain ⟨r', h', hr'⟩ := read_zero net (c.advance net)
  have e1 : countOr0 r = 0 := by rcases hr with rfl | rfl <;> rfl
  have e2 : countOr0 r' = 0 := by rcases hr' with rfl | rfl <;> rfl
  have e3 : r'.getD [] = [] := by rcases hr' with rfl | rfl <;> rfl
  rw [peekAndRead, h]
  simp only [e1, if_true, h', e2, e3]
  simp [Conn.advance, arrivals]

theorem peekAndRead_ok {net : Net} {c : Conn} {body rest : Bytes} (h : c.buf = body ++ rest)
    (hb : body ≠ []) (hf : NoFailure net c.t 2) :
    peekAndRead net c body.length =
      (some body, ⟨rest ++ arrivals net c.t 2, c.t + 2⟩) := by
  have h0 : (net c.t).kind ≠ .fail := hf 0 (by omega)
  have h1 : (net (c.advance net).t).kind ≠ .fail := hf 1 (by omega)
  have hb' : c.buf ++ (net c.t).arrive ≠ [] := by simp [h, hb]
  have hb'' : (c.advance net).buf ++ (net (c.advance net).t).arrive ≠ [] := by
    simp [Conn.advance, h, hb]
  rw [peekAndRead, peek_ok h0 hb']
  have e1 : (c.buf ++ (net c.t).arrive).take body.length = body := by
    rw [h, List.append_assoc, List.take_left' rfl]
  have e2 : ((c.advance net).buf ++ (net (c.advance net).t).arrive).take body.length = body := by
    simp [Conn.advance, h]
  simp only [e1, countOr0, if_true, read_ok h1 hb'', e2, Option.getD_some]
  simp [Conn.advance, h, arrivals]

/-- A whole body in the receive buffer is read at the first attempt. -/
theorem bodyLoop_ok {net : Net} {c : Conn} {body rest : Bytes} (k : Nat) (h : c.buf = body ++ rest)
    (hf : NoFailure net c.t 2) :
    bodyLoop net (k + 1) c body.length = (some body, ⟨rest ++ arrivals net c.t 2, c.t + 2⟩) := by
  rw [bodyLoop]
  by_cases hb : body = []
  · subst hb
    rw [List.length_nil, peekAndRead_zero]
    simp at h
    simp [h]
  · rw [peekAndRead_ok h hb hf]

theorem hasMessages_ok {net : Net} {c : Conn} (hk : (net c.t).kind ≠ .fail)
    (hb : c.buf ++ (net c.t).arrive ≠ []) : hasMessages net c = (true, c.advance net) := by
  rw [hasMessages, peek_ok hk hb]
  cases h : c.buf ++ (net c.t).arrive with
  | nil => exact absurd h hb
  | cons a t => simp

theorem padTo_of_length {n : Nat} {bs : Bytes} (h : bs.length = n) : padTo n bs = bs := by
  simp [padTo, h]

theorem setReadTimeout_ok {net : Net} {c : Conn} (hk : (net c.t).kind ≠ .fail) :
    c.setReadTimeout net = (true, c.advance net) := by
  simp [Conn.setReadTimeout, hk]

/-- Reading a framed message whose bytes are all in the buffer. -/
theorem readFramed_ok {net : Net} {c : Conn} {len : Bytes} {id : UInt8} {body rest : Bytes}
    (hl : IsU32 (body.length + 1) len) (h : c.buf = len ++ id :: body ++ rest)
    (hf : NoFailure net c.t 4) :
    readFramed net c = (some (body, id, body.length), ⟨rest ++ arrivals net c.t 4, c.t + 4⟩) := by
  have hl4 : len.length = 4 := hl.1
  have hlne : len ≠ [] := by intro e; simp [e] at hl4
  have h0 : (net c.t).kind ≠ .fail := hf 0 (by omega)
  have h1 : (net (c.t + 1)).kind ≠ .fail := hf 1 (by omega)
  have e0 : c.buf ++ (net c.t).arrive = len ++ (id :: body ++ rest ++ (net c.t).arrive) := by
    simp [h]
  rw [readFramed, read_ok h0 (by rw [e0]; simp [hlne]), e0, List.take_left' hl4, List.drop_left' hl4]
  simp only [padTo_of_length hl4]
  rw [read_ok (by exact h1) (by simp)]
  simp only [List.cons_append, List.take_succ_cons, List.take_zero, List.drop_succ_cons, List.drop_zero,
    padTo_of_length (n := 1) (bs := [id]) rfl, List.headD_cons]
  have hv : ofBe len = body.length + 1 := by rw [ofBe_eq_beValue]; exact hl.2
  rw [hv]
  simp only [Nat.add_eq_zero_iff, Nat.one_ne_zero, and_false, if_false, Nat.add_sub_cancel]
  rw [bodyLoop_ok (rest := rest ++ (net c.t).arrive ++ (net (c.t + 1)).arrive) 38 (by simp) (by
    intro i hi
    have := hf (2 + i) (by omega)
    simpa [Nat.add_assoc, Nat.add_left_comm] using this)]
  have : arrivals net c.t 4 = (net c.t).arrive ++ ((net (c.t + 1)).arrive ++ arrivals net (c.t + 1 + 1) 2) := rfl
  simp [this]

/-- Reading a complete message from the buffer. -/
theorem readStream_frame {net : Net} {c : Conn} {id : UInt8} {body frame rest : Bytes}
    (hfr : IsFrame id body frame) (h13 : frame.head? ≠ some 0x13) (h : c.buf = frame ++ rest)
    (hf : NoFailure net c.t 7) :
    readStream net c = (some (body, id, body.length), ⟨rest ++ arrivals net c.t 7, c.t + 7⟩) := by
  obtain ⟨len, hl, rfl⟩ := hfr
  have hl4 : len.length = 4 := hl.1
  have hlne : len ≠ [] := by intro e; simp [e] at hl4
  rw [readStream, setReadTimeout_ok (hf 0 (by omega))]
  simp only []
  have e1 : (c.advance net).buf ++ (net (c.advance net).t).arrive ≠ [] := by
    simp [Conn.advance, h, hlne]
  rw [hasMessages_ok (hf 1 (by omega)) e1]
  simp only []
  have e2 : ((c.advance net).advance net).buf ++ (net ((c.advance net).advance net).t).arrive ≠ [] := by
    simp [Conn.advance, h, hlne]
  rw [peek_ok (hf 2 (by omega)) e2]
  simp only []
  have hh : (List.take 68 (((c.advance net).advance net).buf ++
      (net ((c.advance net).advance net).t).arrive)).head? ≠ some 0x13 := by
    cases len with
    | nil => exact absurd rfl hlne
    | cons a t => simpa [Conn.advance, h] using h13
  rw [if_neg (fun x => hh x.2)]
  rw [readFramed_ok (id := id) (rest := rest ++ arrivals net c.t 3) hl (by simp [Conn.advance, h, arrivals]) (by
    intro i hi
    have := hf (3 + i) (by omega)
    simpa [Conn.advance, Nat.add_assoc, Nat.add_left_comm] using this)]
  have : arrivals net c.t 7 = arrivals net c.t 3 ++ arrivals net (c.t + 3) 4 := arrivals_add net c.t 3 4
  simp [Conn.advance, this]

/-- Reading a complete handshake (or anything of 68 bytes that begins with 19). -/
theorem readStream_handshake {net : Net} {c : Conn} {hs rest : Bytes} (hl : hs.length = 68)
    (h13 : hs.head? = some 0x13) (h : c.buf = hs ++ rest) (hf : NoFailure net c.t 4) :
    readStream net c = (some (hs, 19, 68), ⟨rest ++ arrivals net c.t 4, c.t + 4⟩) := by
  have hne : hs ≠ [] := by intro e; simp [e] at hl
  rw [readStream, setReadTimeout_ok (hf 0 (by omega))]
  simp only []
  have e1 : (c.advance net).buf ++ (net (c.advance net).t).arrive ≠ [] := by
    simp [Conn.advance, h, hne]
  rw [hasMessages_ok (hf 1 (by omega)) e1]
  simp only []
  have e2 : ((c.advance net).advance net).buf ++ (net ((c.advance net).advance net).t).arrive ≠ [] := by
    simp [Conn.advance, h, hne]
  rw [peek_ok (hf 2 (by omega)) e2]
  simp only []
  have ht : List.take 68 (((c.advance net).advance net).buf ++
      (net ((c.advance net).advance net).t).arrive) = hs := by
    simp only [Conn.advance, h, List.append_assoc]; rw [List.take_left' hl]
  rw [ht, if_pos ⟨hl, h13⟩]
  have e3 : (((c.advance net).advance net).advance net).buf ++
      (net (((c.advance net).advance net).advance net).t).arrive = hs ++ (rest ++ arrivals net c.t 4) := by
    simp [Conn.advance, h, arrivals]
  rw [read_ok (hf 3 (by omega)) (by rw [e3]; simp [hne]), e3, List.take_left' hl, List.drop_left' hl]
  simp [padTo_of_length hl, Conn.advance]

/-! ### Arbitrary segmentation -/

/-- The connection after `n` calls that removed nothing. -/
def Conn.after (net : Net) (c : Conn) (n : Nat) : Conn := ⟨c.buf ++ arrivals net c.t n, c.t + n⟩

theorem after_zero (net : Net) (c : Conn) : c.after net 0 = c := by simp [Conn.after, arrivals]

theorem advance_eq_after (net : Net) (c : Conn) : c.advance net = c.after net 1 := by
  simp [Conn.advance, Conn.after, arrivals]

theorem after_after (net : Net) (c : Conn) (m n : Nat) : (c.after net m).after net n = c.after net (m + n) := by
  simp [Conn.after, arrivals_add, Nat.add_assoc]

theorem delivers_after {net : Net} {c : Conn} {s : Bytes} (h : Delivers net c s) (n : Nat) :
    Delivers net (c.after net n) s := by
  intro k
  have := h (n + k)
  rw [arrivals_add] at this
  simpa [Conn.after] using this

/-- Once as many bytes as `s` has are in the buffer, they are `s`. -/
theorem delivers_take {net : Net} {c : Conn} {s : Bytes} (h : Delivers net c s)
    (hl : s.length ≤ c.buf.length) : ∃ r, c.buf = s ++ r := by
  have := h 0
  simp only [arrivals, List.append_nil] at this
  rcases this with h | h
  · obtain ⟨t, ht⟩ := h
    have hlen := congrArg List.length ht
    simp at hlen
    have : t = [] := List.length_eq_zero_iff.mp (by omega)
    subst this
    exact ⟨[], by simpa using ht⟩
  · obtain ⟨t, ht⟩ := h
    exact ⟨t, ht.symm⟩

theorem delivers_drop {net : Net} {c : Conn} {s t r : Bytes} (h : Delivers net c (s ++ t))
    (hb : c.buf = s ++ r) : Delivers net ⟨r, c.t⟩ t := by
  intro k
  have := h k
  rw [hb, List.append_assoc] at this
  simpa using this

theorem peek_cases (net : Net) (c : Conn) (n : Nat) :
    c.peek net n = (none, c.after net 1) ∨
      c.peek net n = (some ((c.after net 1).buf.take n), c.after net 1) := by
  rw [← advance_eq_after]
  unfold Conn.peek
  cases h : (net c.t).kind with
  | up =>
    by_cases hb : (c.advance net).buf = []
    · left; simp [hb]
    · right; simp [hb]
  | eof => right; rfl
  | fail => left; rfl

theorem read_cases (net : Net) (c : Conn) (n : Nat) :
    c.read net n = (none, c.after net 1) ∨
      c.read net n = (some ((c.after net 1).buf.take n),
        ⟨(c.after net 1).buf.drop n, c.t + 1⟩) := by
  unfold Conn.read
  rcases peek_cases net c n with h | h <;> rw [h]
  · left; rfl
  · right; rfl

theorem peekAndRead_cases {net : Net} {c : Conn} {s : Bytes} (h : Delivers net c s) :
    (∃ n, peekAndRead net c s.length = (none, c.after net n)) ∨
    (∃ n r, peekAndRead net c s.length = (some s, ⟨r, c.t + n⟩) ∧
      c.buf ++ arrivals net c.t n = s ++ r) := by
  by_cases hs : s = []
  · subst hs
    right
    exact ⟨2, _, peekAndRead_zero net c, by simp⟩
  have hpos : 0 < s.length := List.length_pos_iff.mpr hs
  unfold peekAndRead
  rcases peek_cases net c s.length with hp | hp
  · rw [hp]
    have : ¬ countOr0 none = s.length := by simp only [countOr0]; omega
    simp only [this, if_false]
    exact .inl ⟨1, rfl⟩
  · rw [hp]
    by_cases hl : countOr0 (some ((c.after net 1).buf.take s.length)) = s.length
    · simp only [hl, if_true]
      have hlen : s.length ≤ (c.after net 1).buf.length := by
        simp only [countOr0, List.length_take] at hl; omega
      have hlen2 : s.length ≤ (c.after net 2).buf.length := by
        have : (c.after net 2).buf = (c.after net 1).buf ++ arrivals net (c.t + 1) 1 := by
          simp [Conn.after, arrivals]
        rw [this, List.length_append]; omega
      obtain ⟨r, hr⟩ := delivers_take (delivers_after h 2) hlen2
      have haa : (c.after net 1).after net 1 = c.after net 2 := after_after net c 1 1
      rcases read_cases net (c.after net 1) s.length with hq | hq
      · rw [hq]
        have : ¬ countOr0 none = s.length := by simp only [countOr0]; omega
        simp only [this, if_false]
        exact .inl ⟨2, by rw [haa]⟩
      · rw [hq, haa, hr, List.take_left' rfl, List.drop_left' rfl]
        simp only [countOr0, if_true, Option.getD_some]
        refine .inr ⟨2, r, rfl, ?_⟩
        simpa [Conn.after] using hr
    · simp only [hl, if_false]
      exact .inl ⟨1, rfl⟩

theorem bodyLoop_cases {net : Net} {s : Bytes} (k : Nat) : ∀ {c : Conn}, Delivers net c s →
    (∃ c', bodyLoop net k c s.length = (none, c')) ∨
    (∃ n r, bodyLoop net k c s.length = (some s, ⟨r, c.t + n⟩) ∧
      c.buf ++ arrivals net c.t n = s ++ r) := by
  induction k with
  | zero => intro c _; exact .inl ⟨c, rfl⟩
  | succ k ih =>
    intro c h
    rw [bodyLoop]
    rcases peekAndRead_cases h with ⟨n, hp⟩ | ⟨n, r, hp, hr⟩
    · rw [hp]
      simp only []
      rcases ih (delivers_after h n) with ⟨c', hc⟩ | ⟨n', r, hc, hr⟩
      · exact .inl ⟨c', hc⟩
      · refine .inr ⟨n + n', r, ?_, ?_⟩
        · rw [hc]; simp [Conn.after, Nat.add_assoc]
        · rw [arrivals_add]; simpa [Conn.after] using hr
    · rw [hp]
      exact .inr ⟨n, r, rfl, hr⟩

theorem readFramed_cases {net : Net} {c : Conn} {id : UInt8} {body frame : Bytes}
    (hfr : IsFrame id body frame) (h : Delivers net c frame) (h5 : 5 ≤ c.buf.length) :
    (∃ c', readFramed net c = (none, c')) ∨
    (∃ n r, readFramed net c = (some (body, id, body.length), ⟨r, c.t + n⟩) ∧
      c.buf ++ arrivals net c.t n = frame ++ r) := by
  obtain ⟨len, hl, rfl⟩ := hfr
  have hl4 : len.length = 4 := hl.1
  have hsplit : ∃ r, c.buf = len ++ id :: r := by
    have := h 0
    simp only [arrivals, List.append_nil] at this
    have e : len ++ id :: body = (len ++ [id]) ++ body := by simp
    have hh : (len ++ [id]) <+: c.buf := by
      rcases this with h | h
      · rw [e] at h
        exact List.prefix_of_prefix_length_le (List.prefix_append _ _) h (by simp; omega)
      · rw [e] at h
        exact (List.prefix_append _ _).trans h
    obtain ⟨r, hr⟩ := hh
    exact ⟨r, by rw [← hr]; simp⟩
  obtain ⟨r, hr⟩ := hsplit
  have hv : ofBe len = body.length + 1 := by rw [ofBe_eq_beValue]; exact hl.2
  unfold readFramed
  rcases read_cases net c 4 with hq | hq
  · rw [hq]; exact .inl ⟨_, rfl⟩
  · have e0 : (c.after net 1).buf = len ++ (id :: r ++ arrivals net c.t 1) := by simp [Conn.after, hr]
    rw [hq, e0, List.take_left' hl4, List.drop_left' hl4]
    simp only [padTo_of_length hl4, hv]
    rcases read_cases net ⟨id :: r ++ arrivals net c.t 1, c.t + 1⟩ 1 with hq2 | hq2
    · rw [hq2]; exact .inl ⟨_, rfl⟩
    · rw [hq2]
      simp only [Conn.after, List.cons_append, List.take_succ_cons, List.take_zero, List.drop_succ_cons,
        List.drop_zero, padTo_of_length (n := 1) (bs := [id]) rfl, List.headD_cons, Nat.add_eq_zero_iff,
        Nat.one_ne_zero, and_false, if_false, Nat.add_sub_cancel]
      have hd : Delivers net ⟨r ++ arrivals net c.t 1 ++ arrivals net (c.t + 1) 1, c.t + 1 + 1⟩ body := by
        have h2 := delivers_after h 2
        have e : (c.after net 2).buf = (len ++ [id]) ++ (r ++ arrivals net c.t 1 ++ arrivals net (c.t + 1) 1) := by
          simp [Conn.after, hr, arrivals]
        have e' : len ++ id :: body = (len ++ [id]) ++ body := by simp
        rw [e'] at h2
        exact delivers_drop h2 e
      rcases bodyLoop_cases 39 hd with ⟨c', hc⟩ | ⟨n, r', hc, hr'⟩
      · rw [hc]; exact .inl ⟨_, rfl⟩
      · rw [hc]
        refine .inr ⟨2 + n, r', ?_, ?_⟩
        · simp [Nat.add_assoc]
        · have ea : arrivals net c.t (2 + n) = arrivals net c.t 1 ++ (arrivals net (c.t + 1) 1 ++
              arrivals net (c.t + 1 + 1) n) := by
            rw [arrivals_add, show (2 : Nat) = 1 + 1 from rfl, arrivals_add, List.append_assoc]
          rw [hr, ea]
          simp only [List.append_assoc, List.cons_append] at hr' ⊢
          rw [hr']

/-- Whatever the segmentation of the rest, once the five header bytes have been received the message
read is the one sent. -/
theorem readStream_cases {net : Net} {c : Conn} {id : UInt8} {body frame : Bytes}
    (hfr : IsFrame id body frame) (h13 : frame.head? ≠ some 0x13) (h : Delivers net c frame)
    (h5 : 5 ≤ c.buf.length) :
    (∃ c', readStream net c = (none, c')) ∨
    (∃ n r, readStream net c = (some (body, id, body.length), ⟨r, c.t + n⟩) ∧
      c.buf ++ arrivals net c.t n = frame ++ r) := by
  have hhead : ∀ n, ((c.after net n).buf.take 68).head? ≠ some 0x13 := by
    intro n
    have hf0 : frame ≠ [] := by
      obtain ⟨len, hl, rfl⟩ := hfr
      simp
    have := h n
    have hc : c.buf ++ arrivals net c.t n ≠ [] := by
      intro e
      have := congrArg List.length e
      rw [List.length_append] at this
      simp only [List.length_nil] at this
      omega
    rcases this with ⟨t, ht⟩ | ⟨t, ht⟩
    · rw [← ht] at h13
      cases hb : c.buf ++ arrivals net c.t n with
      | nil => exact absurd hb hc
      | cons a l => rw [hb] at h13; simpa [Conn.after, hb] using h13
    · cases frame with
      | nil => exact absurd rfl hf0
      | cons a l => simpa [Conn.after, ← ht] using h13
  have hlen : ∀ n, 5 ≤ (c.after net n).buf.length := by
    intro n; simp [Conn.after]; omega
  unfold readStream Conn.setReadTimeout
  rw [advance_eq_after]
  by_cases hk : (net c.t).kind ≠ .fail
  · simp only [hk, not_false_eq_true, decide_true, ne_eq]
    unfold hasMessages
    rcases peek_cases net (c.after net 1) 1 with hp | hp
    · rw [hp]; exact .inl ⟨_, rfl⟩
    · rw [hp, after_after]
      have h2 : decide ((List.take 1 (c.after net (1 + 1)).buf).length ≠ 0) = true := by
        have := hlen 2
        rw [decide_eq_true_eq, List.length_take]
        show min 1 (c.after net 2).buf.length ≠ 0
        omega
      simp only [h2]
      have fin : ∀ n, (∃ c', readFramed net (c.after net n) = (none, c')) ∨
          (∃ n' r, readFramed net (c.after net n) = (some (body, id, body.length), ⟨r, c.t + n'⟩) ∧
            c.buf ++ arrivals net c.t n' = frame ++ r) := by
        intro n
        rcases readFramed_cases hfr (delivers_after h n) (hlen n) with h1 | ⟨n', r, h1, h2⟩
        · exact .inl h1
        · refine .inr ⟨n + n', r, ?_, ?_⟩
          · rw [h1]; simp [Conn.after, Nat.add_assoc]
          · rw [arrivals_add]; simpa [Conn.after] using h2
      rcases peek_cases net (c.after net 2) 68 with hq | hq
      · rw [hq, after_after]; exact fin 3
      · rw [hq, after_after]
        simp only []
        rw [if_neg (fun x => hhead 3 x.2)]
        exact fin 3
  · simp only [hk, decide_false]
    exact .inl ⟨_, rfl⟩

end RustBit
