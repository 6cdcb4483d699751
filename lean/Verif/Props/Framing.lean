/-
C28: just which buffered messages are read as they were written.
-/
import Verif.Props.Stream

namespace RustBit
open Spec

/-- The first byte of a four-byte number. -/
theorem isU32_head {n : Nat} {len : Bytes} (h : IsU32 n len) : ∃ b : UInt8, len.head? = some b ∧ b.toNat = n / 2 ^ 24 := by
  obtain ⟨h1, h2⟩ := h
  match len, h1 with
  | [a, b, c, d], _ =>
    refine ⟨a, rfl, ?_⟩
    have ha := a.toNat_lt
    have hb := b.toNat_lt
    have hc := c.toNat_lt
    have hd := d.toNat_lt
    simp [beValue] at h2
    omega

/-- C28, exactly: a whole buffered message is returned just if its length is not written with a first byte of 19, that is, if it is shorter than 318767104 bytes
or has 335544320 bytes or more; all others are taken for handshakes. -/
theorem C28_exact (net : Net) (c : Conn) (id : UInt8) (body frame rest : Bytes) (hfr : IsFrame id body frame) (h : c.buf = frame ++ rest) (hf : NoFailure net c.t 7) :
    ((readStream net c).1 = some (body, id, body.length) ↔ body.length + 1 < 318767104 ∨ 335544320 ≤ body.length + 1) ∧
    (¬ (body.length + 1 < 318767104 ∨ 335544320 ≤ body.length + 1) → (readStream net c).1 = some (frame.take 68, 19, 68)) := by
  have hfr2 := hfr
  obtain ⟨len, hl, e⟩ := hfr2
  obtain ⟨b, hb, hn⟩ := isU32_head hl
  have hh : frame.head? = some b := by rw [e]; cases len with
    | nil => cases hb
    | cons x t => exact hb
  have hhuge : b = 19 → (readStream net c).1 = some (frame.take 68, 19, 68) := by
    intro h19
    have hlen : 68 ≤ frame.length := by
      rw [h19] at hn
      have : (19 : UInt8).toNat = 19 := rfl
      rw [e, List.length_append, List.length_cons]
      omega
    rw [readStream_handshake (hs := frame.take 68) (rest := frame.drop 68 ++ rest) (by rw [List.length_take]; omega)
      (by rw [List.head?_take, if_neg (by decide), hh, h19]) (by rw [← List.append_assoc, List.take_append_drop, h]) (fun i hi => hf i (by omega))]
  have hsmall : b ≠ 19 → (readStream net c).1 = some (body, id, body.length) := by
    intro h19
    rw [readStream_frame hfr (by rw [hh]; simpa using h19) h hf]
  have hiff : b ≠ 19 ↔ body.length + 1 < 318767104 ∨ 335544320 ≤ body.length + 1 := by
    rw [Ne, ← UInt8.toNat_inj, hn]
    have : (19 : UInt8).toNat = 19 := rfl
    omega
  refine ⟨⟨fun hr => hiff.mp fun h19 => ?_, fun hr => hsmall (hiff.mpr hr)⟩, fun hr => hhuge (Classical.byContradiction fun h19 => hr (hiff.mp h19))⟩
  rw [hhuge h19, Option.some.injEq, Prod.mk.injEq, Prod.mk.injEq] at hr
  rw [h19] at hn
  have : (19 : UInt8).toNat = 19 := rfl
  omega

/-- Non-vacuity. -/
example : IsFrame 1 [] [0, 0, 0, 1, 1] ∧ NoFailure quietNet 0 7 ∧ (∃ body : Bytes, IsFrame 7 body (beU32 0x13000001 ++ 7 :: body)) ∧
    ∃ body : Bytes, IsFrame 7 body (beU32 0x14000001 ++ 7 :: body) := by
  refine ⟨⟨[0, 0, 0, 1], ⟨rfl, rfl⟩, rfl⟩, fun i _ => by simp [quietNet], ⟨List.replicate 0x13000000 0, beU32 _, ?_, rfl⟩,
    List.replicate 0x14000000 0, beU32 _, ?_, rfl⟩
  · rw [List.length_replicate]; exact isU32_beU32 _ (by decide)
  · rw [List.length_replicate]; exact isU32_beU32 _ (by decide)

end RustBit
