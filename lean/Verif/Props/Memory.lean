/-
Property C90: how much memory decoding takes.
-/
import Verif.Proofs.Memory
import Verif.Props.Stack

namespace RustBit
open Spec Decoder

/-! ### C90 -/

/-- C90, for all inputs on which the decoder returns or panics: at no time does it hold more than the input has bytes (one unit for the
empty input). Missing: inputs on which it never returns. -/
theorem C90_bounded_partial (c : Bytes) (h : ¬ Stuck c) (n : Nat) (hn : Holds n c) : n ≤ max 1 c.length := by
  obtain ⟨f, hf⟩ := hn
  rcases (held_le f).1 c 0 (Nat.zero_le _) with h1 | h1
  · simp only [Nat.sub_zero] at h1; omega
  · exact absurd ((C05_hangs_exactly_partial c).mp h1) h

/-- C90, exactly: what is held is bounded just if the input is not stuck. -/
theorem C90_exact (c : Bytes) : (∃ limit, ∀ n, Holds n c → n ≤ limit) ↔ ¬ Stuck c := by
  constructor
  · rintro ⟨limit, h⟩ hs
    have := h (limit + 1) (held_of_stuck hs c 0 (by simp) (limit + 1))
    omega
  · exact fun h => ⟨_, C90_bounded_partial c h⟩

/-- The value itself takes no more than the bytes it was read from. -/
theorem C90_value (c : Bytes) (v : Metainfo) (n : Nat) (h : decode c = .ok (v, n)) : v.units ≤ max 1 n := by
  rcases (units_of_decode _).1 c 0 v n h with ⟨-, rfl⟩ | h1
  · simp only [Metainfo.units]; omega
  · omega

/-- What is held is no less than the value that comes out. -/
theorem C90_value_held (c : Bytes) (v : Metainfo) (n : Nat) (h : decode c = .ok (v, n)) : Holds v.units c :=
  ⟨_, (held_of_decode _).1 c 0 v n h⟩

/-- Non-vacuity: a dictionary with a list; what it holds while it is being read, and in the end. -/
example : ¬ Stuck b!"d4:listli7e3:abcee" ∧ Holds 12 b!"d4:listli7e3:abcee" ∧
    (∃ v, decode b!"d4:listli7e3:abcee" = .ok (v, 18) ∧ v.units = 12) := by
  refine ⟨fun h => ?_, ⟨40, by decide +kernel⟩, _, rfl, by decide⟩
  have := (C05_hangs_exactly_partial _).mpr h 20
  rw [show decodeF 20 b!"d4:listli7e3:abcee" 0 = .ok (_, 18) from rfl] at this
  cases this

theorem heldF_str {s bs c rest : Bytes} {p : Nat} (h : IsStr s bs) (hs : s ≠ []) (hl : s.length < 2 ^ 64) (e : c.drop p = bs ++ rest) (f : Nat) :
    heldF (f + 1) c p = s.length + 1 := by
  have hp := parseString_of_isStr h hl e
  obtain ⟨ds, hd, rfl⟩ := h
  obtain ⟨d, t, rfl⟩ := List.exists_cons_of_ne_nil hd.nonempty
  have hb : c[p]? = some d := getElem?_of_drop (by rw [e]; rfl)
  have hg := hd.digits d (by simp)
  have hz : d ≠ 48 := by
    rintro rfl
    have h0 := hd.noLeadingZero rfl
    have hv := hd.denotes
    rw [h0] at hv
    exact hs (List.length_eq_zero_iff.mp hv.symm)
  have hz' : d.toNat ≠ 48 := fun h => hz (UInt8.toNat_inj.mp h)
  have h1 : d ≠ 105 := by rintro rfl; simp at hg
  have h2 : d ≠ 108 := by rintro rfl; simp at hg
  have h3 : d ≠ 100 := by rintro rfl; simp at hg
  have h4 : (49 ≤ d && d ≤ 57) = true := by
    simp only [Bool.and_eq_true, decide_eq_true_eq, UInt8.le_iff_toNat_le]
    exact ⟨by show 49 ≤ _; omega, hg.2⟩
  rw [heldF, hb]
  simp only [h1, h2, h3, h4, if_false, if_true, hp]

/-- A value that is given up for another with the same key is held until the other has been read: the input can take almost twice what is left of it. -/
theorem C90_overwritten (k s ks bs bs' : Bytes) (v : BVal) (hk : IsStr k ks) (hu : validUtf8 k = true) (hkl : k.length < 2 ^ 64)
    (hv : IsBencode v bs) (hr : Readable v) (hs : IsStr s bs') (hne : s ≠ []) (hl : s.length < 2 ^ 64) :
    Holds (1 + (k.length + 1) + (meaning v).units + (k.length + 1) + (s.length + 1)) (100 :: (ks ++ bs ++ ks ++ bs' ++ [101])) := by
  generalize hc : 100 :: (ks ++ bs ++ ks ++ bs' ++ [101]) = c
  have e0 : c.drop 1 = ks ++ (bs ++ (ks ++ (bs' ++ [101]))) := by rw [← hc]; simp
  have e1 := drop_add e0
  have e2 := drop_add e1
  have e3 := drop_add e2
  obtain ⟨f, hf⟩ := decode_doc hv hr c _ _ e1
  have hf' : decodeF (f + 2) c (1 + ks.length) = .ok (meaning v, 1 + ks.length + bs.length) := by
    rw [decodeF_mono (f := f) (by omega) (by rw [hf]; simp), hf]
  obtain ⟨b, t, hb, -, hb101⟩ := isStr_head hk
  have c1 : c[1]? = some b := getElem?_of_drop (by rw [e0, hb]; rfl)
  have c2 : c[1 + ks.length + bs.length]? = some b := getElem?_of_drop (by rw [e2, hb]; rfl)
  refine ⟨f + 4, ?_⟩
  rw [heldF, show c[0]? = some 100 by rw [← hc]; rfl]
  simp only [show (100 : UInt8) ≠ 105 by decide, show (100 : UInt8) ≠ 108 by decide, if_false, if_true]
  rw [dictHeld, c1]
  simp only [hb101, if_false, Nat.zero_add, parseString_of_isStr hk hkl e0, hu, if_true, hf']
  rw [dictHeld, c2]
  simp only [hb101, if_false, parseString_of_isStr hk hkl e2, hu, if_true, heldF_str hs hne hl e3]
  simp only [mapInsert, unitsEntries]
  omega

/-- Non-vacuity: fifteen units while the second value is read, seven of which are left. -/
example : Holds 15 b!"d1:k5:first1:k3:abce" ∧ decode b!"d1:k5:first1:k3:abce" = .ok (.dictionary [(b!"k", .string b!"abc")], 20) ∧
    (Metainfo.dictionary [(b!"k", .string b!"abc")]).units = 7 :=
  ⟨C90_overwritten b!"k" b!"abc" b!"1:k" b!"5:first" b!"3:abc" (.str b!"first")
    ⟨b!"1", ⟨by decide, by decide, by decide, by decide⟩, rfl⟩ rfl (by decide)
    (.str ⟨b!"5", ⟨by decide, by decide, by decide, by decide⟩, rfl⟩) ⟨by decide, by decide⟩
    ⟨b!"3", ⟨by decide, by decide, by decide, by decide⟩, rfl⟩ (by decide) (by decide), rfl, by decide⟩

/-- C90: a key that is not text is held, with the dictionary, until it is refused, and nothing after it. -/
theorem C90_key (k ks rest : Bytes) (hk : IsStr k ks) (hu : validUtf8 k = false) (hkl : k.length < 2 ^ 64) (n : Nat) :
    Holds n (100 :: (ks ++ rest)) ↔ n ≤ k.length + 2 := by
  generalize hc : 100 :: (ks ++ rest) = c
  have e0 : c.drop 1 = ks ++ rest := by rw [← hc]; rfl
  obtain ⟨b, t, hb, -, hb101⟩ := isStr_head hk
  have c1 : c[1]? = some b := getElem?_of_drop (by rw [e0, hb]; rfl)
  have key : ∀ f, heldF f c 0 = if f < 2 then 0 else k.length + 2 := by
    intro f
    match f with
    | 0 => rfl
    | 1 =>
      rw [heldF, show c[0]? = some 100 by rw [← hc]; rfl]
      rfl
    | f + 2 =>
      rw [heldF, show c[0]? = some 100 by rw [← hc]; rfl]
      simp only [show (100 : UInt8) ≠ 105 by decide, show (100 : UInt8) ≠ 108 by decide, if_false, if_true]
      rw [dictHeld, c1, if_neg (by omega)]
      simp only [hb101, if_false, parseString_of_isStr hk hkl e0, hu, Bool.false_eq_true, unitsEntries]
      omega
  constructor
  · rintro ⟨f, hf⟩
    rw [key] at hf
    split at hf <;> omega
  · intro h
    exact ⟨2, by rw [key, if_neg (by omega)]; exact h⟩

/-- Non-vacuity: a key of one byte that is no character. -/
example : Holds 3 (100 :: (b!"1:" ++ [255] ++ b!"i1ee")) ∧ ¬ Holds 4 (100 :: (b!"1:" ++ [255] ++ b!"i1ee")) := by
  have := C90_key [255] (b!"1:" ++ [255]) b!"i1ee" ⟨b!"1", ⟨by decide, by decide, by decide, by decide⟩, rfl⟩ (by decide) (by decide)
  exact ⟨(this 3).mpr (by decide), fun h => absurd ((this 4).mp h) (by decide)⟩

/-- The bound is attained: by a run of the letter l. -/
theorem C90_attained (n : Nat) : Holds n (List.replicate n 108) := by
  have key : ∀ (k f p : Nat), p + k = n → 2 * k ≤ f → k ≤ heldF f (List.replicate n 108) p := by
    intro k
    induction k with
    | zero => intros; omega
    | succ k ih =>
      intro f p hp hf
      obtain ⟨g, rfl⟩ : ∃ g, f = g + 1 + 1 := ⟨f - 2, by omega⟩
      have hb : (List.replicate n (108 : UInt8))[p]? = some 108 := by rw [List.getElem?_replicate, if_pos (by omega)]
      rw [heldF, hb]
      simp only [show (108 : UInt8) ≠ 105 by decide, if_false, if_true]
      rw [listHeld]
      have := ih g (p + 1) (by omega) (by omega)
      cases hb1 : (List.replicate n (108 : UInt8))[p + 1]? with
      | none =>
        rw [List.getElem?_eq_none_iff, List.length_replicate] at hb1
        simp only [unitsElems]
        omega
      | some b =>
        obtain ⟨_, hb2⟩ := List.getElem?_eq_some_iff.mp hb1
        rw [List.getElem_replicate] at hb2
        subst hb2
        simp only [show (108 : UInt8) ≠ 101 by decide, if_false, unitsElems]
        omega
  exact ⟨2 * n, key n (2 * n) 0 (by omega) (Nat.le_refl _)⟩

/-- The full C90 is false: for the valid document l0:e, a list with an empty string, no memory suffices. -/
theorem C90_refuted : IsBencode (.list [.str []]) b!"l0:e" ∧ ∀ n, Holds n b!"l0:e" := by
  refine ⟨?_, fun n => held_of_stuck ((C05_hangs_exactly_partial _).mp C05_refuted_hang) _ 0 (by simp) n⟩
  exact .list (bs := b!"0:") (.cons (bs := b!"0:") (bs' := []) (.str ⟨b!"0", ⟨by decide, by decide, by decide, by decide⟩, rfl⟩) .nil)

/-- A peer can make use of this: a message of ten bytes that is read from the connection in full, and for which no memory suffices. -/
theorem C90_refuted_peer : ∃ payload frame, IsFrame 20 (0 :: payload) frame ∧ frame.length = 10 ∧ (∀ n, Holds n payload) ∧
    ∀ (net : Net) (c : Conn) (rest : Bytes), c.buf = frame ++ rest → NoFailure net c.t 7 →
      (readStream net c).1 = some (0 :: payload, 20, payload.length + 1) := by
  obtain ⟨hf, h13⟩ := wire_frame (x := (20, 0 :: b!"l0:e")) (by decide)
  refine ⟨b!"l0:e", _, hf, ?_, C90_refuted.2, fun net c rest hb hn => ?_⟩
  · obtain ⟨l, hl4, e⟩ := hf
    rw [e]
    simp [hl4.1]
  · rw [C28_message_partial net c 20 _ _ rest hf h13 hb hn]
    rfl

end RustBit
