/-
Property C30, exactly: when a message must be there for it to be read, and what becomes of it otherwise.
-/
import Verif.Proofs.Arrival
import Verif.Props.Stream

namespace RustBit
open Spec

/-- C30, exactly: on a connection without failures, a message that is next in the stream is read by the next read, and exactly its bytes are taken, if
and only if something of it is there by the second system call, its length by the fourth, its id by the fifth, and all of it by the 44th. -/
theorem C30_exact (net : Net) (c : Conn) (id : UInt8) (body frame : Bytes) (hfr : IsFrame id body frame) (h13 : frame.head? ≠ some 19)
    (h : Delivers net c frame) (hf : NoFailure net c.t 45) :
    (∃ c', readStream net c = (some (body, id, body.length), c') ∧ Took net c c' frame.length) ↔ InTime net c frame.length := by
  rcases read_took hfr h13 h with ⟨hin, j, hr, hl⟩ | ⟨hno, hcase⟩
  · exact ⟨fun _ => hin, fun _ => ⟨_, hr, took_Took hl⟩⟩
  · constructor
    · rintro ⟨c', hr, ht⟩
      exfalso
      rcases hcase with ⟨⟨j, hr'⟩, -⟩ | ⟨r, j, n, hr', -, hn, hl⟩
      · rw [hr] at hr'; cases hr'
      · rw [hr] at hr'
        simp only [Prod.mk.injEq] at hr'
        obtain ⟨-, rfl⟩ := hr'
        have := Took.unique ht (took_Took hl)
        omega
    · intro hin; exact absurd ⟨hf, hin⟩ hno

/-- C30: a read either takes nothing, or reads the message that is next, or takes a part of it only: then the connection is out of step, and the rest
of the message will be read as if another began there. For all schedules, failures included. -/
theorem C30_out_of_step (net : Net) (c : Conn) (id : UInt8) (body frame : Bytes) (hfr : IsFrame id body frame) (h13 : frame.head? ≠ some 19)
    (h : Delivers net c frame) :
    (∃ c', readStream net c = (none, c') ∧ Took net c c' 0) ∨
    (∃ c', readStream net c = (some (body, id, body.length), c') ∧ Took net c c' frame.length) ∨
    ∃ r c' n, readStream net c = (r, c') ∧ Took net c c' n ∧ 0 < n ∧ n < frame.length := by
  rcases read_took hfr h13 h with ⟨hin, j, hr, hl⟩ | ⟨-, ⟨⟨j, hr⟩, -⟩ | ⟨r, j, n, hr, h0, hn, hl⟩⟩
  · exact .inr (.inl ⟨_, hr, took_Took hl⟩)
  · exact .inl ⟨_, hr, took_Took (Nat.zero_le _)⟩
  · exact .inr (.inr ⟨r, _, n, hr, took_Took hl, h0, hn⟩)

/-- C30: on a connection without failures, a message of which something is there by the second call, but that does not come in time, is never read as what
it is: the connection is out of step from then on. -/
theorem C30_late (net : Net) (c : Conn) (id : UInt8) (body frame : Bytes) (hfr : IsFrame id body frame) (h13 : frame.head? ≠ some 19)
    (h : Delivers net c frame) (hf : NoFailure net c.t 45) (hsome : seen net c 2 ≠ []) (hlate : ¬ InTime net c frame.length) :
    ∃ r c' n, readStream net c = (r, c') ∧ Took net c c' n ∧ 0 < n ∧ n < frame.length := by
  rcases read_took hfr h13 h with ⟨hin, -⟩ | ⟨-, ⟨-, hno⟩ | ⟨r, j, n, hr, h0, hn, hl⟩⟩
  · exact absurd hin hlate
  · exact absurd ⟨hf, hsome⟩ hno
  · exact ⟨r, _, n, hr, took_Took hl, h0, hn⟩

theorem readFramed_length {net : Net} {c : Conn} {body : Bytes} {id : UInt8} {len : Nat} {c' : Conn}
    (h : readFramed net c = (some (body, id, len), c')) : ∃ b4 c1, c.read net 4 = (some b4, c1) ∧ len = ofBe (padTo 4 b4) - 1 := by
  unfold readFramed at h
  cases h4 : c.read net 4 with
  | mk o c1 =>
    rw [h4] at h
    cases o with
    | none => cases h
    | some b4 =>
      refine ⟨b4, c1, rfl, ?_⟩
      simp only at h
      cases h1 : c1.read net 1 with
      | mk o c2 =>
        rw [h1] at h
        cases o with
        | none => cases h
        | some b1 =>
          simp only at h
          split at h
          · rename_i hz
            simp only [Prod.mk.injEq, Option.some.injEq] at h
            omega
          · cases hb : bodyLoop net 39 c2 (ofBe (padTo 4 b4) - 1) with
            | mk o c3 =>
              rw [hb] at h
              cases o with
              | none => cases h
              | some b =>
                simp only [Prod.mk.injEq, Option.some.injEq] at h
                exact h.1.2.2.symm

theorem ofBe_starts {b : UInt8} (hb : b.toNat = 19) (t : Bytes) (h : t.length ≤ 3) : 318767104 ≤ ofBe (padTo 4 (b :: t)) := by
  match t, h with
  | [], _ => simp [padTo, ofBe, List.replicate]; omega
  | [x], _ => simp [padTo, ofBe, List.replicate]; omega
  | [x, y], _ => simp [padTo, ofBe, List.replicate]; omega
  | [x, y, z], _ => simp [padTo, ofBe, List.replicate]; omega

/-- C30, exactly, for handshakes: on a connection without failures, a handshake that is next in the stream is read by the next read if and only if something
of it is there by the second system call and all 68 bytes by the third. -/
theorem C30_handshake_exact (net : Net) (c : Conn) (flags hash peerId hs : Bytes) (hh : IsHandshake flags hash peerId hs)
    (h : Delivers net c hs) (hf : NoFailure net c.t 4) :
    (∃ c', readStream net c = (some (hs, 19, 68), c') ∧ Took net c c' 68) ↔ seen net c 2 ≠ [] ∧ 68 ≤ (seen net c 3).length := by
  obtain ⟨f1, f2, f3, e⟩ := hh
  have hn : ("BitTorrent protocol".toUTF8.toList : Bytes) = b!"BitTorrent protocol" := by decide +kernel
  rw [hn] at e
  have hl : hs.length = 68 := by rw [e]; simp [f1, f2, f3]
  have hhd : hs.head? = some 19 := by rw [e]; rfl
  have m23 := seen_mono net c (show 2 ≤ 3 by omega)
  have m34 := seen_mono net c (show 3 ≤ 4 by omega)
  have hset : c.setReadTimeout net = (true, c.took net 1 0) := by
    rw [took_zero, ← advance_eq_after]; exact setReadTimeout_ok (hf 0 (by omega))
  by_cases hne : seen net c 2 = []
  · have hhas : hasMessages net (c.took net 1 0) = (false, c.took net 2 0) := by
      unfold hasMessages
      rcases took_peek net c (j := 1) (n := 0) (by omega) 1 with ⟨h, hw⟩ | h
      · rw [h]
      · rw [h]; simp [hne]
    rw [readStream, hset]
    simp only
    rw [hhas]
    simp [hne]
  have hpos2 : 0 < (seen net c 2).length := List.length_pos_iff.mpr hne
  have hhas : hasMessages net (c.took net 1 0) = (true, c.took net 2 0) := by
    unfold hasMessages
    rcases took_peek net c (j := 1) (n := 0) (by omega) 1 with ⟨h, hw⟩ | h
    · exfalso
      rcases hw with hw | hw
      · exact hf 1 (by omega) hw
      · have hw : (seen net c 2).length ≤ 0 := hw
        omega
    · rw [h]
      cases hs : seen net c 2 with
      | nil => exact absurd hs hne
      | cons a t => simp [hs]
  have hpk : (c.took net 2 0).peek net 68 = (some ((seen net c 3).take 68), c.took net 3 0) := by
    rcases took_peek net c (j := 2) (n := 0) (by omega) 68 with ⟨h, hw⟩ | h
    · exfalso
      rcases hw with hw | hw
      · exact hf 2 (by omega) hw
      · have hw : (seen net c 3).length ≤ 0 := hw
        omega
    · rw [h]; rfl
  by_cases hall : 68 ≤ (seen net c 3).length
  · have e3 := seen_take h (m := 68) (k := 3) (by omega) hall
    rw [List.take_of_length_le (Nat.le_of_eq hl)] at e3
    have hr : readStream net c = (some (hs, 19, 68), c.took net 4 68) := by
      rw [readStream, hset]
      simp only
      rw [hhas]
      simp only
      rw [hpk]
      simp only
      rw [e3, if_pos ⟨hl, hhd⟩]
      rcases took_read net c (j := 3) (n := 0) (by omega) 68 with ⟨h', hw⟩ | ⟨x, h', hx, -⟩
      · exfalso
        rcases hw with hw | hw
        · exact hf 3 (by omega) hw
        · have hw : (seen net c 4).length ≤ 0 := hw
          omega
      · have hx' : x = hs := by
          rw [hx]
          have := seen_take h (m := 68) (k := 4) (by omega) (by omega)
          rw [List.take_of_length_le (Nat.le_of_eq hl)] at this
          simpa using this
        rw [h', hx', hl]
        simp only [padTo_of_length hl, Nat.zero_add]
    exact ⟨fun _ => ⟨hne, hall⟩, fun _ => ⟨_, hr, took_Took (by omega)⟩⟩
  · constructor
    · rintro ⟨c', hr, -⟩
      exfalso
      rw [readStream, hset] at hr
      simp only at hr
      rw [hhas] at hr
      simp only at hr
      rw [hpk] at hr
      simp only at hr
      rw [if_neg (by simp only [List.length_take]; omega)] at hr
      obtain ⟨b4, c1, h4, hlen⟩ := readFramed_length hr
      rcases took_read net c (j := 3) (n := 0) (by omega) 4 with ⟨h', -⟩ | ⟨x, h', hx, -⟩
      · rw [h'] at h4; cases h4
      · rw [h'] at h4
        simp only [Prod.mk.injEq, Option.some.injEq] at h4
        obtain ⟨rfl, -⟩ := h4
        have e1 := seen_take h (m := 1) (k := 4) (by omega) (by omega)
        cases hs4 : seen net c 4 with
        | nil => rw [hs4] at m34; simp only [List.length_nil] at m34; omega
        | cons b t =>
          have hx : x = (b :: t).take 4 := by rw [hx]; simp only [List.drop_zero]; rw [← hs4]
          have hb : b = 19 := by
            rw [hs4] at e1
            cases hs with
            | nil => cases hhd
            | cons y ys =>
              simp only [List.head?_cons, Option.some.injEq] at hhd
              simp at e1
              rw [e1, hhd]
          rw [hx, List.take_succ_cons] at hlen
          have := ofBe_starts (b := b) (by rw [hb]; rfl) (t.take 3) (by simp; omega)
          omega
    · rintro ⟨-, h2⟩; exact absurd h2 hall

/-! ### Cases -/

/-- A byte comes at call `k`. -/
def lateByte (k : Nat) : Net := fun t => ⟨if t = k then [8] else [], .up⟩

theorem lateByte_arrivals (k : Nat) : ∀ n, arrivals (lateByte k) 0 n = if k < n then [8] else []
  | 0 => rfl
  | n + 1 => by
    rw [arrivals_add, arrivals_one, lateByte_arrivals k n]
    simp only [lateByte, Nat.zero_add]
    split <;> split <;> first | (rw [if_pos (by omega)]; rfl) | (rw [if_neg (by omega)]; rfl) | omega

theorem lateByte_delivers (k : Nat) : Delivers (lateByte k) ⟨[0, 0, 0, 2, 4], 0⟩ [0, 0, 0, 2, 4, 8] := by
  intro n
  rw [lateByte_arrivals]
  split
  · exact .inr ⟨[], rfl⟩
  · exact .inl ⟨[8], rfl⟩

/-- Non-vacuity of `C30_exact`: the last byte of this message may come with call number 43 (the 44th). -/
example : ∃ c', readStream (lateByte 43) ⟨[0, 0, 0, 2, 4], 0⟩ = (some ([8], 4, 1), c') ∧ Took (lateByte 43) ⟨[0, 0, 0, 2, 4], 0⟩ c' 6 :=
  (C30_exact _ _ 4 [8] [0, 0, 0, 2, 4, 8] ⟨[0, 0, 0, 2], ⟨rfl, rfl⟩, rfl⟩ (by decide) (lateByte_delivers 43) (fun _ _ => by simp [lateByte])).mpr
    (by unfold InTime seen; rw [lateByte_arrivals, lateByte_arrivals, lateByte_arrivals, lateByte_arrivals]; decide)

/-- Non-vacuity of `C30_late` and `C30_out_of_step`: with the next call it is too late. -/
example : ∃ r c' n, readStream (lateByte 44) ⟨[0, 0, 0, 2, 4], 0⟩ = (r, c') ∧ Took (lateByte 44) ⟨[0, 0, 0, 2, 4], 0⟩ c' n ∧ 0 < n ∧ n < 6 :=
  C30_late _ _ 4 [8] [0, 0, 0, 2, 4, 8] ⟨[0, 0, 0, 2], ⟨rfl, rfl⟩, rfl⟩ (by decide) (lateByte_delivers 44) (fun _ _ => by simp [lateByte])
    (by unfold seen; simp) (by unfold InTime seen; rw [lateByte_arrivals, lateByte_arrivals, lateByte_arrivals, lateByte_arrivals]; decide)

/-- Non-vacuity of `C30_handshake_exact`: a handshake that is there. -/
example : ∃ hs c', IsHandshake [0, 0, 0, 0, 0, 0x10, 0, 0] (List.replicate 20 1) (List.replicate 20 2) hs ∧
    readStream (segList []) ⟨hs, 0⟩ = (some (hs, 19, 68), c') ∧ Took (segList []) ⟨hs, 0⟩ c' 68 := by
  obtain ⟨hs, hh, hl⟩ : ∃ hs : Bytes, IsHandshake [0, 0, 0, 0, 0, 0x10, 0, 0] (List.replicate 20 1) (List.replicate 20 2) hs ∧ hs.length = 68 :=
    ⟨(newHandshake (List.replicate 20 1) (List.replicate 20 2)).asBytes, ⟨rfl, rfl, rfl, by decide +kernel⟩, by decide +kernel⟩
  have hne : hs ≠ [] := by intro e; rw [e] at hl; cases hl
  obtain ⟨c', h1, h2⟩ := (C30_handshake_exact (segList []) ⟨hs, 0⟩ _ _ _ _ hh (fun k => .inr ⟨_, rfl⟩) (fun _ _ => by simp [segList])).mpr
    ⟨by simp [seen, hne], by simp [seen, hl]⟩
  exact ⟨_, c', hh, h1, h2⟩

end RustBit
