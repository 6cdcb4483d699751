/- One read of a message, whatever the network does. -/
import Verif.Proofs.Segments
import Verif.Spec.Arrival

namespace RustBit
open Spec

/-- The connection after `k` calls in which `n` bytes were taken. -/
def Conn.took (net : Net) (c : Conn) (k n : Nat) : Conn := ⟨(seen net c k).drop n, c.t + k⟩

theorem took_zero (net : Net) (c : Conn) (k : Nat) : c.took net k 0 = c.after net k := by simp [Conn.took, Conn.after, seen]

theorem took_Took {net : Net} {c : Conn} {k n : Nat} (h : n ≤ (seen net c k).length) : Took net c (c.took net k n) n := ⟨k, rfl, h, rfl⟩

theorem seen_add (net : Net) (c : Conn) (j k : Nat) : seen net c (j + k) = seen net c j ++ arrivals net (c.t + j) k := by
  simp [seen, arrivals_add]

theorem seen_mono (net : Net) (c : Conn) {i j : Nat} (h : i ≤ j) : (seen net c i).length ≤ (seen net c j).length := by
  obtain ⟨d, rfl⟩ : ∃ d, j = i + d := ⟨j - i, by omega⟩
  rw [seen_add, List.length_append]; omega

theorem seen_prefix (net : Net) (c : Conn) {i j : Nat} (h : i ≤ j) : seen net c i <+: seen net c j := by
  obtain ⟨d, rfl⟩ : ∃ d, j = i + d := ⟨j - i, by omega⟩
  rw [seen_add]; exact List.prefix_append _ _

theorem took_after {net : Net} {c : Conn} {k n : Nat} (h : n ≤ (seen net c k).length) (i : Nat) :
    (c.took net k n).after net i = c.took net (k + i) n := by
  simp only [Conn.after, Conn.took, seen_add, List.drop_append_of_le_length h, Nat.add_assoc]

theorem _root_.Spec.Took.unique {net : Net} {c c' : Conn} {n n' : Nat} (h : Took net c c' n) (h' : Took net c c' n') : n = n' := by
  obtain ⟨k, a1, a2, a3⟩ := h
  obtain ⟨k', b1, b2, b3⟩ := h'
  have : k = k' := by omega
  subst this
  rw [a3] at b3
  have := congrArg List.length b3
  simp only [List.length_drop] at this
  omega

/-- A read from a connection from which `n` bytes were taken. -/
theorem took_read (net : Net) (c : Conn) {j n : Nat} (hn : n ≤ (seen net c j).length) (k : Nat) :
    ((c.took net j n).read net k = (none, c.took net (j + 1) n) ∧ ((net (c.t + j)).kind = .fail ∨ (seen net c (j + 1)).length ≤ n)) ∨
    ∃ x, (c.took net j n).read net k = (some x, c.took net (j + 1) (n + x.length)) ∧ x = ((seen net c (j + 1)).drop n).take k ∧
      n + x.length ≤ (seen net c (j + 1)).length := by
  have e := took_after hn 1
  rcases read_cases net (c.took net j n) k with h | h
  · left
    refine ⟨by rw [h, e], ?_⟩
    rcases Classical.em ((net (c.t + j)).kind = .fail) with hf | hf
    · exact .inl hf
    · right
      rcases Nat.lt_or_ge n (seen net c (j + 1)).length with hl | hl
      · exfalso
        have hb : ((c.took net j n).after net 1).buf ≠ [] := by
          rw [e]; simp only [Conn.took]
          intro e0
          have := congrArg List.length e0
          simp only [List.length_drop, List.length_nil] at this
          omega
        have := read_ok (c := c.took net j n) (n := k) hf (by simpa [Conn.after, arrivals] using hb)
        rw [h] at this
        cases this
      · exact hl
  · right
    refine ⟨((c.took net j n).after net 1).buf.take k, ?_, by rw [e]; rfl, ?_⟩
    · rw [h]
      congr 1
      rw [e]
      simp only [Conn.took, Conn.mk.injEq]
      refine ⟨?_, by omega⟩
      rw [List.drop_drop, List.length_take, List.length_drop]
      rcases Nat.lt_or_ge ((seen net c (j + 1)).length - n) k with hk | hk
      · rw [Nat.min_eq_right (by omega), List.drop_of_length_le (by omega), List.drop_of_length_le (by omega)]
      · rw [Nat.min_eq_left hk]
    · rw [e]
      simp only [Conn.took, List.length_take, List.length_drop]
      have := seen_mono net c (Nat.le_add_right j 1)
      omega

theorem took_peek (net : Net) (c : Conn) {j n : Nat} (hn : n ≤ (seen net c j).length) (k : Nat) :
    ((c.took net j n).peek net k = (none, c.took net (j + 1) n) ∧ ((net (c.t + j)).kind = .fail ∨ (seen net c (j + 1)).length ≤ n)) ∨
    (c.took net j n).peek net k = (some (((seen net c (j + 1)).drop n).take k), c.took net (j + 1) n) := by
  have e := took_after hn 1
  rcases peek_cases net (c.took net j n) k with h | h
  · left
    refine ⟨by rw [h, e], ?_⟩
    rcases Classical.em ((net (c.t + j)).kind = .fail) with hf | hf
    · exact .inl hf
    · right
      rcases Nat.lt_or_ge n (seen net c (j + 1)).length with hl | hl
      · exfalso
        have hb : ((c.took net j n).after net 1).buf ≠ [] := by
          rw [e]; simp only [Conn.took]
          intro e0
          have := congrArg List.length e0
          simp only [List.length_drop, List.length_nil] at this
          omega
        have := peek_ok (c := c.took net j n) (n := k) hf (by simpa [Conn.after, arrivals] using hb)
        rw [h] at this
        cases this
      · exact hl
  · right; rw [h, e]; rfl

/-- Waiting for the body of a message. -/
theorem took_bodyLoop (net : Net) (c : Conn) {n : Nat} (len : Nat) : ∀ (K j : Nat), n ≤ (seen net c j).length →
    (∃ j', j ≤ j' ∧ bodyLoop net K (c.took net j n) len = (none, c.took net j' n) ∧
      (0 < K → ¬ (NoFailure net (c.t + j) (K + 1) ∧ n + len ≤ (seen net c (j + K)).length)) ∧ (0 < K → len ≠ 0)) ∨
    ∃ j', j ≤ j' ∧ bodyLoop net K (c.took net j n) len = (some (((seen net c j').drop n).take len), c.took net j' (n + len)) ∧
      n + len ≤ (seen net c j').length ∧ n + len ≤ (seen net c (j + K)).length
  | 0, j, _ => .inl ⟨j, Nat.le_refl _, rfl, fun h => by omega, fun h => by omega⟩
  | K + 1, j, hn => by
    have hm1 := seen_mono net c (Nat.le_add_right j 1)
    have hm2 : (seen net c (j + 1)).length ≤ (seen net c (j + 2)).length := seen_mono net c (by omega)
    have hm3 := seen_mono net c (show j + 1 ≤ j + (K + 1) by omega)
    rw [bodyLoop]
    by_cases h0 : len = 0
    · subst h0
      rw [peekAndRead_zero]
      refine .inr ⟨j + 2, by omega, ?_, by omega, by omega⟩
      have := took_after hn 2
      simp only [Conn.after] at this
      simp only [List.take_zero, Nat.add_zero, this]
    · -- one attempt
      have hone : (∃ i, 0 < i ∧ peekAndRead net (c.took net j n) len = (none, c.took net (j + i) n) ∧
            ((i = 1 ∧ ((net (c.t + j)).kind = .fail ∨ (seen net c (j + 1)).length < n + len)) ∨
              ((net (c.t + j + 1)).kind = .fail ∧ n + len ≤ (seen net c (j + 1)).length))) ∨
          (peekAndRead net (c.took net j n) len = (some (((seen net c (j + 2)).drop n).take len), c.took net (j + 2) (n + len)) ∧
            n + len ≤ (seen net c (j + 1)).length) := by
        unfold peekAndRead
        rcases took_peek net c hn len with ⟨h, hw⟩ | h
        · rw [h]
          simp only [countOr0, show ¬ 0 = len from fun e => h0 e.symm, if_false]
          exact .inl ⟨1, by omega, rfl, .inl ⟨rfl, hw.imp_right fun _ => by omega⟩⟩
        · rw [h]
          simp only [countOr0, List.length_take, List.length_drop]
          by_cases hl : min len ((seen net c (j + 1)).length - n) = len
          · rw [if_pos hl]
            rcases took_read net c (j := j + 1) (n := n) (by omega) len with ⟨h1, hw⟩ | ⟨x, h1, hx, h2⟩
            · rw [h1]
              simp only [countOr0, show ¬ 0 = len from fun e => h0 e.symm, if_false]
              refine .inl ⟨2, by omega, rfl, .inr ⟨?_, by omega⟩⟩
              rcases hw with hw | hw
              · exact hw
              · have hw : (seen net c (j + 2)).length ≤ n := hw
                omega
            · rw [h1]
              have hxl : x.length = len := by
                rw [hx, List.length_take, List.length_drop]
                have : (seen net c (j + 1 + 1)).length = (seen net c (j + 2)).length := rfl
                omega
              simp only [countOr0, hxl, if_true, Option.getD_some]
              exact .inr ⟨by rw [hx], by omega⟩
          · rw [if_neg hl]
            exact .inl ⟨1, by omega, rfl, .inl ⟨rfl, .inr (by omega)⟩⟩
      rcases hone with ⟨i, hi, h1, hw⟩ | ⟨h1, h2⟩
      · rw [h1]
        simp only
        have hmi := seen_mono net c (Nat.le_add_right j i)
        rcases took_bodyLoop net c (n := n) len K (j + i) (by omega) with ⟨j', a1, a2, a3, a4⟩ | ⟨j', a1, a2, a3, a4⟩
        · refine .inl ⟨j', by omega, a2, fun _ => ?_, fun _ => h0⟩
          rintro ⟨hf, hl⟩
          rcases hw with ⟨rfl, hw | hw⟩ | hw
          · exact hf 0 (by omega) hw
          · rcases Nat.eq_zero_or_pos K with hK | hK
            · subst hK; simp only [Nat.zero_add] at hl; omega
            · refine a3 hK ⟨?_, by rw [Nat.add_assoc, Nat.add_comm 1 K]; exact hl⟩
              intro i hi
              have := hf (1 + i) (by omega)
              simpa [Nat.add_assoc] using this
          · exact hf 1 (by omega) hw.1
        · refine .inr ⟨j', by omega, a2, a3, ?_⟩
          rcases hw with ⟨rfl, -⟩ | hw
          · rw [Nat.add_assoc, Nat.add_comm 1 K] at a4; exact a4
          · omega
      · rw [h1]
        exact .inr ⟨j + 2, by omega, rfl, by omega, by omega⟩

theorem seen_take {net : Net} {c : Conn} {s : Bytes} (h : Delivers net c s) {m k : Nat} (h1 : m ≤ s.length) (h2 : m ≤ (seen net c k).length) :
    (seen net c k).take m = s.take m := by
  rcases h k with ⟨t, ht⟩ | ⟨t, ht⟩
  · rw [← ht]; exact (List.take_append_of_le_length h2).symm
  · show (c.buf ++ arrivals net c.t k).take m = _
    rw [← ht]; exact List.take_append_of_le_length h1

theorem ofBe_padTo_take (len : Bytes) (h : len.length = 4) (n : Nat) : ofBe (padTo 4 (len.take n)) ≤ ofBe len := by
  obtain ⟨a, b, c, d, rfl⟩ : ∃ a b c d, len = [a, b, c, d] := by
    match len, h with
    | [a, b, c, d], _ => exact ⟨a, b, c, d, rfl⟩
  match n with
  | 0 => simp [padTo, ofBe]
  | 1 => simp [padTo, ofBe, List.replicate]; omega
  | 2 => simp [padTo, ofBe, List.replicate]; omega
  | 3 => simp [padTo, ofBe, List.replicate]
  | n + 4 => simp [padTo]

/-- One read, the stream beginning with a message: exactly if there is no failure and the message comes in time, or in spite of a failure, it is
read and taken; otherwise nothing is taken, or a part. -/
theorem read_took {net : Net} {c : Conn} {id : UInt8} {body frame : Bytes} (hfr : IsFrame id body frame) (h13 : frame.head? ≠ some 19)
    (hd : Delivers net c frame) :
    (InTime net c frame.length ∧ ∃ j, readStream net c = (some (body, id, body.length), c.took net j frame.length) ∧
      frame.length ≤ (seen net c j).length) ∨
    (¬ (NoFailure net c.t 45 ∧ InTime net c frame.length) ∧
      (((∃ j, readStream net c = (none, c.took net j 0)) ∧ ¬ (NoFailure net c.t 45 ∧ seen net c 2 ≠ [])) ∨
        ∃ r j n, readStream net c = (r, c.took net j n) ∧ 0 < n ∧ n < frame.length ∧ n ≤ (seen net c j).length)) := by
  obtain ⟨len, hlen, rfl⟩ := hfr
  have hl4 : len.length = 4 := hlen.1
  have hv : ofBe len = body.length + 1 := by rw [ofBe_eq_beValue]; exact hlen.2
  have hfl : (len ++ id :: body).length = body.length + 5 := by simp [hl4]; omega
  have m23 := seen_mono net c (show 2 ≤ 3 by omega)
  have m34 := seen_mono net c (show 3 ≤ 4 by omega)
  have m45 := seen_mono net c (show 4 ≤ 5 by omega)
  have e0 : (c.took net 0 0) = c := by rw [took_zero, after_zero]
  by_cases hk0 : (net c.t).kind = .fail
  · right
    have : c.setReadTimeout net = (false, c.took net 1 0) := by
      rw [took_zero, ← advance_eq_after]; simp [Conn.setReadTimeout, hk0]
    rw [readStream, this]
    exact ⟨fun h => h.1 0 (by omega) hk0, .inl ⟨⟨1, rfl⟩, fun h => h.1 0 (by omega) hk0⟩⟩
  have hset : c.setReadTimeout net = (true, c.took net 1 0) := by
    rw [took_zero, ← advance_eq_after]; simp [Conn.setReadTimeout, hk0]
  -- is there something?
  have hhas : (hasMessages net (c.took net 1 0) = (false, c.took net 2 0) ∧ ((net (c.t + 1)).kind = .fail ∨ seen net c 2 = [])) ∨
      (hasMessages net (c.took net 1 0) = (true, c.took net 2 0) ∧ seen net c 2 ≠ []) := by
    unfold hasMessages
    rcases took_peek net c (j := 1) (n := 0) (by omega) 1 with ⟨h, hw⟩ | h
    · rw [h]
      exact .inl ⟨rfl, hw.imp_right fun hw => List.length_eq_zero_iff.mp (Nat.le_zero.mp hw)⟩
    · rw [h]
      cases hs : seen net c 2 with
      | nil => left; exact ⟨by simp [hs], .inr rfl⟩
      | cons a t => right; exact ⟨by simp [hs], by simp⟩
  rcases hhas with ⟨h, hw⟩ | ⟨h, hne⟩
  · rw [readStream, hset]
    simp only
    rw [h]
    refine .inr ⟨?_, .inl ⟨⟨2, rfl⟩, ?_⟩⟩
    · rintro ⟨hf, hin⟩
      rcases hw with hw | hw
      · exact hf 1 (by omega) hw
      · exact hin.1 hw
    · rintro ⟨hf, hin⟩
      rcases hw with hw | hw
      · exact hf 1 (by omega) hw
      · exact hin hw
  have hpos2 : 0 < (seen net c 2).length := List.length_pos_iff.mpr hne
  -- it is no handshake
  have hnot : ∀ p : Bytes, p = (seen net c 3).take 68 → ¬ (p.length = 68 ∧ p.head? = some 0x13) := by
    rintro p rfl ⟨-, hh⟩
    apply h13
    have e1 := seen_take hd (m := 1) (k := 3) (by omega) (by omega)
    rw [List.head?_take] at hh
    simp only [show (68 : Nat) ≠ 0 by decide, if_false] at hh
    have e2 : (seen net c 3).head? = (len ++ id :: body).head? := by
      have := congrArg List.head? e1
      simpa [List.head?_take] using this
    rw [← e2]; exact hh
  have hpk : ∃ o, (c.took net 2 0).peek net 68 = (o, c.took net 3 0) ∧ (o = none ∨ o = some ((seen net c 3).take 68)) := by
    rcases took_peek net c (j := 2) (n := 0) (by omega) 68 with ⟨h, -⟩ | h
    · exact ⟨_, h, .inl rfl⟩
    · exact ⟨_, h, .inr (by simp)⟩
  obtain ⟨o, hpk, ho⟩ := hpk
  have hframed : readStream net c = readFramed net (c.took net 3 0) := by
    rw [readStream, hset]
    simp only
    rw [h]
    simp only
    rw [hpk]
    rcases ho with rfl | rfl
    · rfl
    · simp only [if_neg (hnot _ rfl)]
  rw [hframed, readFramed]
  -- the length
  rcases took_read net c (j := 3) (n := 0) (by omega) 4 with ⟨h, hw⟩ | ⟨b4, h, hb4, hn1⟩
  · rw [h]
    have hk : (net (c.t + 3)).kind = .fail := by
      rcases hw with hw | hw
      · exact hw
      · have hw : (seen net c 4).length ≤ 0 := hw
        omega
    exact .inr ⟨fun h => h.1 3 (by omega) hk, .inl ⟨⟨4, rfl⟩, fun h => h.1 3 (by omega) hk⟩⟩
  rw [h]
  simp only [Nat.zero_add] at hn1 ⊢
  have hb4l : b4.length = min 4 (seen net c 4).length := by rw [hb4]; simp
  have hb4v : b4 = len.take b4.length := by
    have : b4 = (seen net c 4).take b4.length := by
      rw [hb4l, hb4]
      simp only [List.drop_zero]
      rcases Nat.le_total 4 (seen net c 4).length with h | h
      · rw [Nat.min_eq_left h]
      · rw [Nat.min_eq_right h, List.take_of_length_le h, List.take_length]
    rw [seen_take hd (by omega) (by omega)] at this
    rw [List.take_append_of_le_length (by omega)] at this
    exact this
  have hL := ofBe_padTo_take len hl4 b4.length
  rw [← hb4v, hv] at hL
  generalize hn : b4.length = n1 at h hn1 hb4l hb4v hL ⊢
  -- the id
  rcases took_read net c (j := 4) (n := n1) hn1 1 with ⟨h, hw⟩ | ⟨b1, h, hb1, hn2⟩
  · rw [h]
    refine .inr ⟨?_, .inr ⟨_, 5, n1, rfl, by omega, by omega, Nat.le_trans hn1 m45⟩⟩
    rintro ⟨hf, hin⟩
    rcases hw with hw | hw
    · exact hf 4 (by omega) hw
    · have := hin.2.2.1
      have hw : (seen net c 5).length ≤ n1 := hw
      omega
  rw [h]
  simp only
  have hn2 : n1 + b1.length ≤ (seen net c 5).length := hn2
  have hb1l : b1.length = min 1 ((seen net c 5).length - n1) := by rw [hb1]; simp
  by_cases hz : ofBe (padTo 4 b4) = 0
  · rw [if_pos hz]
    have hn14 : n1 < 4 := by
      rcases Nat.lt_or_ge n1 4 with h | h
      · exact h
      · exfalso
        rw [hb4v, List.take_of_length_le (by omega), padTo_of_length hl4, hv] at hz
        omega
    refine .inr ⟨?_, .inr ⟨_, 5, n1 + b1.length, rfl, by omega, by omega, hn2⟩⟩
    rintro ⟨-, hin⟩
    have := hin.2.1
    omega
  rw [if_neg hz]
  rcases took_bodyLoop net c (ofBe (padTo 4 b4) - 1) 39 5 hn2 with ⟨j', a1, a2, a3, a4⟩ | ⟨j', a1, a2, a3, a4⟩
  · rw [a2]
    have m5j := seen_mono net c a1
    have hlen0 := a4 (by omega)
    refine .inr ⟨?_, .inr ⟨_, j', n1 + b1.length, rfl, by omega, ?_, by omega⟩⟩
    · rintro ⟨hf, hin⟩
      obtain ⟨-, i1, i2, i3⟩ := hin
      have hn4 : n1 = 4 := by omega
      rw [hb4v, List.take_of_length_le (by omega), padTo_of_length hl4, hv] at a3
      refine a3 (by omega) ⟨?_, ?_⟩
      · intro i hi
        have := hf (5 + i) (by omega)
        simpa [Nat.add_assoc] using this
      · rw [hfl] at i3
        have : n1 + b1.length + (body.length + 1 - 1) ≤ body.length + 5 := by omega
        exact Nat.le_trans this i3
    · rcases Nat.lt_or_ge n1 4 with h | h
      · omega
      · rw [hb4v, List.take_of_length_le (by omega), padTo_of_length hl4, hv] at hlen0
        omega
  · rw [a2]
    simp only
    by_cases hall : n1 = 4 ∧ b1.length = 1
    · left
      obtain ⟨hn4, hb1'⟩ := hall
      have hb4e : b4 = len := by rw [hb4v, List.take_of_length_le (by omega)]
      rw [hb4e, padTo_of_length hl4, hv] at a2 a3 a4 ⊢
      simp only [Nat.add_sub_cancel, hb1', hn4] at a2 a3 a4 ⊢
      have hb1v : b1 = [id] := by
        have e1 := seen_take hd (m := 5) (k := 5) (by omega) (by omega)
        have e2 : ((seen net c 5).take 5).drop 4 = ((seen net c 5).drop 4).take 1 := by rw [List.drop_take]
        rw [hb1]
        simp only [hn4]
        rw [← e2, e1]
        simp [List.take_append, hl4, List.drop_append]
      have hbody : ((seen net c j').drop (4 + 1)).take body.length = body := by
        have e1 := seen_take hd (m := body.length + 5) (k := j') (by omega) (by omega)
        have e2 : ((seen net c j').take (body.length + 5)).drop 5 = ((seen net c j').drop 5).take body.length := by
          rw [List.drop_take]; congr 1
        rw [← e2, e1, List.take_of_length_le (by omega), show len ++ id :: body = (len ++ [id]) ++ body by simp]
        exact List.drop_left' (by simp [hl4])
      have hpad : (padTo 1 b1).headD 0 = id := by rw [hb1v]; rfl
      refine ⟨⟨hne, by omega, by omega, ?_⟩, j', ?_, by omega⟩
      · rw [hfl]
        exact Nat.le_trans (by omega) a4
      · rw [hbody, hpad, hfl]
        congr 2
        omega
    · right
      refine ⟨?_, .inr ⟨_, j', _, rfl, by omega, ?_, a3⟩⟩
      · rintro ⟨-, hin⟩
        obtain ⟨-, i1, i2, i3⟩ := hin
        omega
      · rw [hfl]
        omega

end RustBit
