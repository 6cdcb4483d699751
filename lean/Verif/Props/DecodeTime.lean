/-
Property C106: how long decoding takes.
-/
import Verif.Proofs.DecodeTime
import Verif.Props.Memory

namespace RustBit
open Spec Decoder

/-! ### C106 -/

/-- C106, for all inputs on which the decoder returns or panics: it takes at most four steps for every byte of the input, and two. Missing: inputs on which it
never returns. -/
theorem C106_bounded_partial (c : Bytes) (h : ¬ Stuck c) (n : Nat) (hn : Takes n c) : n ≤ 4 * c.length + 2 := by
  obtain ⟨f, hf⟩ := hn
  rcases (time_le f).1 c 0 (Nat.zero_le _) with h1 | h1
  · simp only [Nat.sub_zero] at h1; omega
  · exact absurd ((C05_hangs_exactly_partial c).mp h1) h

/-- C106, exactly: the steps taken are bounded just if the input is not stuck. -/
theorem C106_exact (c : Bytes) : (∃ limit, ∀ n, Takes n c → n ≤ limit) ↔ ¬ Stuck c := by
  constructor
  · rintro ⟨limit, h⟩ hs
    have := h (limit + 1) ⟨limit + 1, (time_hang (limit + 1)).1 c 0 ((C05_hangs_exactly_partial c).mpr hs _)⟩
    omega
  · exact fun h => ⟨_, C106_bounded_partial c h⟩

/-- What follows the value costs nothing: a value that was read from `n` bytes took at least `n` steps and less than `4 * n` (one, if `n` is zero). -/
theorem C106_value (c : Bytes) (v : Metainfo) (n : Nat) (h : decode c = .ok (v, n)) :
    Takes n c ∧ ∀ m, Takes m c → m ≤ max 1 (4 * n - 1) := by
  have key : ∀ f, decodeF f c 0 = .ok (v, n) → n ≤ timeF f c 0 ∧ timeF f c 0 ≤ max 1 (4 * n - 1) := by
    intro f hf
    rcases (time_ok f).1 c 0 v n hf with h1 | ⟨rfl, h1⟩ <;> omega
  refine ⟨⟨_, (key _ h).1⟩, ?_⟩
  rintro m ⟨f, hf⟩
  have h1 := timeF_mono (Nat.le_max_left f (2 * c.length + 2)) c 0
  have h2 := key (max f (2 * c.length + 2)) (by
    rw [decodeF_mono (Nat.le_max_right f (2 * c.length + 2)) (by rw [show decodeF (2 * c.length + 2) c 0 = .ok (v, n) from h]; simp)]
    exact h)
  omega

/-- Non-vacuity: a dictionary with a list is read in 40 steps; what follows it makes no difference. -/
example : ¬ Stuck b!"d4:listli7e3:abceejunk" ∧ (∃ v, decode b!"d4:listli7e3:abceejunk" = .ok (v, 18)) ∧
    Takes 40 b!"d4:listli7e3:abceejunk" ∧ timeF 100 b!"d4:listli7e3:abceejunk" 0 = 40 := by
  refine ⟨fun h => ?_, ⟨_, rfl⟩, ⟨100, by decide +kernel⟩, by decide +kernel⟩
  have := (C05_hangs_exactly_partial _).mpr h 20
  rw [show decodeF 20 b!"d4:listli7e3:abceejunk" 0 = .ok (_, 18) from rfl] at this
  cases this

/-- C106, for documents the decoder can read: exactly as many steps as `steps` says, and what follows makes no difference. -/
theorem C106_steps (v : BVal) (doc rest : Bytes) (hdoc : IsBencode v doc) (hr : Readable v) (n : Nat) : Takes n (doc ++ rest) ↔ n ≤ steps v := by
  obtain ⟨f, h1, h2⟩ := time_doc hdoc hr (doc ++ rest) 0 rest (by simp)
  constructor
  · rintro ⟨g, hg⟩
    have h3 := timeF_mono (Nat.le_max_right f g) (doc ++ rest) 0
    rw [timeF_stable (Nat.le_max_left f g) (by rw [h1]; simp), h2] at h3
    omega
  · exact fun h => ⟨f, by omega⟩

/-- Non-vacuity: the same dictionary. -/
example : steps (.dict [(b!"list", .list [.int 7, .str b!"abc"])]) = 40 := by decide +kernel

theorem countDigits_run (ds : Bytes) (hd : ∀ d ∈ ds, isDigit d = true) :
    countDigits ds = none ∧ ∀ x t, isDigit x = false → countDigits (ds ++ x :: t) = some ds.length := by
  induction ds with
  | nil => exact ⟨rfl, fun x t hx => by simp [countDigits, hx]⟩
  | cons a ds ih =>
    obtain ⟨h1, h2⟩ := ih (fun d h => hd d (by simp [h]))
    refine ⟨by rw [countDigits, if_pos (hd a (by simp)), h1]; rfl, fun x t hx => ?_⟩
    rw [List.cons_append, countDigits, if_pos (hd a (by simp)), h2 x t hx]
    rfl

theorem takes_int (c : Bytes) (n : Nat) : Takes n (105 :: c) ↔ n ≤ 1 + digitsTime (105 :: c) 1 := by
  constructor
  · rintro ⟨f, hf⟩
    cases f with
    | zero => rw [timeF] at hf; omega
    | succ f => rw [timeF] at hf; simpa using hf
  · intro h
    exact ⟨1, by rw [timeF]; simpa using h⟩

/-- A number that is refused takes four steps for every digit (it is copied for the message), and two; one that is cut off, one for every digit, and one. -/
theorem C106_failing (ds : Bytes) (hd : ∀ d ∈ ds, isDigit d = true) :
    (∀ x rest, isDigit x = false → (ds = [] ∨ 2 ^ 64 ≤ value ds) → ∀ n, Takes n (105 :: (ds ++ x :: rest)) ↔ n ≤ 4 * ds.length + 2) ∧
    ∀ n, Takes n (105 :: ds) ↔ n ≤ ds.length + 1 := by
  obtain ⟨h1, h2⟩ := countDigits_run ds hd
  constructor
  · intro x rest hx hbad n
    rw [takes_int, digitsTime, show (105 :: (ds ++ x :: rest)).drop 1 = ds ++ x :: rest from rfl, h2 x rest hx]
    have : ∀ a, getConsecutiveDigits (105 :: (ds ++ x :: rest)) 1 ≠ .ok a := by
      rintro ⟨m, q⟩ hg
      obtain ⟨ds', x', t', e, hne, hd', hx', hv, hm, -⟩ := getConsecutiveDigits_ok.mp hg
      have e' : ds ++ x :: rest = ds' ++ x' :: t' := e
      have hl : ds.length = ds'.length := by
        have := h2 x rest hx
        rw [e', (countDigits_run ds' hd').2 x' t' hx'] at this
        exact (Option.some.inj this).symm
      obtain ⟨rfl, -⟩ := List.append_inj e' hl
      rcases hbad with rfl | hbad
      · exact hne rfl
      · omega
    simp only []
    omega
  · intro n
    rw [takes_int, digitsTime, show (105 :: ds).drop 1 = ds from rfl, h1]
    simp only [List.length_cons]
    omega

/-- Non-vacuity: 2^64 has twenty digits; eighty-two steps. -/
example : (decode b!"i18446744073709551616e" = .err (.badNumberDecode b!"18446744073709551616")) ∧ Takes 82 b!"i18446744073709551616e" ∧
    ¬ Takes 83 b!"i18446744073709551616e" := by
  have := (C106_failing b!"18446744073709551616" (by decide)).1 101 [] (by decide) (.inr (by decide))
  exact ⟨rfl, (this 82).mpr (by decide), fun h => absurd ((this 83).mp h) (by decide)⟩

/-- The factor cannot be less: a dictionary takes four steps for every byte of its key, which may be almost all of it. -/
theorem C106_attained (k ks bs : Bytes) (v : BVal) (hk : IsStr k ks) (hu : validUtf8 k = true) (hkl : k.length < 2 ^ 64)
    (hv : IsBencode v bs) (hr : Readable v) : Takes (4 * k.length + bs.length) (100 :: (ks ++ bs ++ [101])) := by
  generalize hc : 100 :: (ks ++ bs ++ [101]) = c
  have e0 : c.drop 1 = ks ++ (bs ++ [101]) := by rw [← hc]; simp
  have e1 := drop_add e0
  obtain ⟨f, hf⟩ := decode_doc hv hr c _ _ e1
  obtain ⟨b, t, hb, -, hb101⟩ := isStr_head hk
  have c1 : c[1]? = some b := getElem?_of_drop (by rw [e0, hb]; rfl)
  have hs := parseString_of_isStr hk hkl e0
  obtain ⟨n, -, h2, -⟩ := stringTime_ok hs
  have h3 : bs.length ≤ timeF f c (1 + ks.length) := by
    rcases (time_ok f).1 _ _ _ _ hf with h4 | ⟨h4, h5⟩ <;> omega
  refine ⟨f + 2, ?_⟩
  rw [timeF, show c[0]? = some 100 by rw [← hc]; rfl]
  simp only [show (100 : UInt8) ≠ 105 by decide, show (100 : UInt8) ≠ 108 by decide, if_false, if_true]
  rw [dictTime, c1]
  simp only [hb101, if_false, Nat.zero_add, hs, hu, if_true, hf]
  show _ ≤ 1 + (1 + stringTime c 1 + (k.length + k.length + timeF f c (1 + ks.length) + (k.length + dictTime f c (1 + ks.length + bs.length))))
  omega

/-- Non-vacuity: 63 steps for twenty bytes, twelve of which are the key. -/
example : Takes 51 b!"d12:twelve bytesi7ee" ∧ timeF 100 b!"d12:twelve bytesi7ee" 0 = 63 :=
  ⟨C106_attained b!"twelve bytes" b!"12:twelve bytes" b!"i7e" (.int 7) ⟨b!"12", ⟨by decide, by decide, by decide, by decide⟩, rfl⟩ (by decide) (by decide)
    (.int (i := 7) (bs := b!"7") (.nonneg ⟨by decide, by decide, by decide, by decide⟩)) (by unfold Readable; decide), by decide +kernel⟩

/-- The full C106 is false: for the valid document l0:e, a list with an empty string, no number of steps suffices. -/
theorem C106_refuted : IsBencode (.list [.str []]) b!"l0:e" ∧ ∀ n, Takes n b!"l0:e" :=
  ⟨C90_refuted.1, fun n => ⟨n, (time_hang n).1 _ 0 (C05_refuted_hang n)⟩⟩

/-- A peer can make use of this: a message of ten bytes that is read from the connection in full, and for which no number of steps suffices. -/
theorem C106_refuted_peer : ∃ payload frame, IsFrame 20 (0 :: payload) frame ∧ frame.length = 10 ∧ (∀ n, Takes n payload) ∧
    ∀ (net : Net) (c : Conn) (rest : Bytes), c.buf = frame ++ rest → NoFailure net c.t 7 →
      (readStream net c).1 = some (0 :: payload, 20, payload.length + 1) := by
  obtain ⟨hf, h13⟩ := wire_frame (x := (20, 0 :: b!"l0:e")) (by decide)
  refine ⟨b!"l0:e", _, hf, ?_, C106_refuted.2, fun net c rest hb hn => ?_⟩
  · obtain ⟨l, hl4, e⟩ := hf
    rw [e]
    simp [hl4.1]
  · rw [C28_message_partial net c 20 _ _ rest hf h13 hb hn]
    rfl

end RustBit
