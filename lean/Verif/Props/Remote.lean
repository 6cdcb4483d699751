/-
Property C114 for the whole program.
-/
import Verif.Spec.Remote
import Verif.Props.Pace
import Verif.Props.Timed

namespace RustBit
open Spec

theorem far_attempt {m : Build} {info : Info} {idx B δ time : Nat} (h : FarAttempt m info idx B δ time) : B * δ ≤ time := by
  obtain ⟨net, w0, w, f, total, cap, p, q, piece, -, h2, h3, h4, h5, h6, rfl⟩ := h
  exact Nat.le_trans (Nat.mul_le_mul_right δ h4) (C114_attempt m net w0 w _ f p q cap δ piece h2 h3 h5 h6)

/-- C114: in every run of the whole program, and for every number of peers, a torrent gets at most `5 * m` pieces of `B` blocks or more within `m * B * δ`, `δ` being
the least time a request and its answer take to travel: no more than five blocks per round trip. -/
theorem C114_program {w : World} {Q : Info → Prop} {fs : FS} {n : Nat} {run : Nat → App} (h : Run w Q fs n run) {k : Nat} {clock : Nat → Nat} {info : Info} {B δ : Nat}
    (hf : Far w run k clock info B δ) {s t : Slot} (hk : (run 0).proc.slots[k]? = some s) (hi : s.sys.torrent.info = some info) {j m : Nat}
    (htj : (run j).proc.slots[k]? = some t) (hc : clock j < clock 1 + m * (B * δ)) :
    (downloaded t.sys).length ≤ (downloaded s.sys).length + 5 * m := by
  have h1 := C113_least h ⟨hf.mono, fun p i j s t u h1 h2 h3 h4 h5 h6 h7 h8 => by
    obtain ⟨time, h9, h10⟩ := hf.attempt p i j s t u h1 h2 h3 h4 h5 h6 h7 h8
    have := far_attempt h9
    omega⟩ hk hi htj hc
  obtain ⟨f, f0, v⟩ := run_view h hk hi
  have h2 := (v.known 0).workers
  rw [f0] at h2
  have h3 : s.sys.workers * m ≤ 5 * m := Nat.mul_le_mul_right m (by omega)
  omega

/-! ### Runs of this kind -/

/-- A peer that is ready at once and sends a block 50 ms after it was asked for. -/
def farPeer : Net := fun t =>
  if t = 0 then ⟨sampleHandshake (List.replicate 20 7) ++ sampleExtension b!"5" ++ sampleUnchoke, .up⟩
  else if t = 25 then ⟨blockMessage 0 0 [1], .up⟩ else ⟨[], .up⟩

def farStart : Peer := freshPeer (List.replicate 20 7) (List.replicate 20 1)

theorem far_three (w : World) (p : Nat) (hp : p < 2) : FarAttempt w.build (threeBytes w.sha) p 1 50
    (attemptTime w.build farPeer 0 (fun _ => 50) (.block 2 p 3) 9 farStart) := by
  have hq : (initPeer farPeer farStart).1 = .ok () := by decide +kernel
  refine ⟨farPeer, 0, fun _ => 50, 9, 3, 1, farStart, (initPeer farPeer farStart).2, [1], ?_, ?_, ?_, Nat.le_refl _, ?_, ?_, rfl⟩
  · generalize w.build = b
    cases b <;> rfl
  · rw [← hq]
  · show ((Downloadable.block 2 p 3).capacity w.build _ : Res DownloadableError Nat) = _
    generalize w.build = b
    rcases (show p = 0 ∨ p = 1 by omega) with rfl | rfl <;> cases b <;> decide +kernel
  · show ((Downloadable.block 2 p 3).download w.build farPeer 9 _).1 = _
    generalize w.build = b
    rcases (show p = 0 ∨ p = 1 by omega) with rfl | rfl <;> cases b <;> decide +kernel
  · show Latency 50 (.block 2 p 3) (execRunHistory w.build farPeer (fun _ => 50) (.block 2 p 3) 9 0 ⟨(initPeer farPeer farStart).2, ⟨[], 1, 0⟩, 0⟩)
    have key : ∀ b, requestTimes (execRunHistory b farPeer (fun _ => 50) (.block 2 p 3) 9 0 ⟨(initPeer farPeer farStart).2, ⟨[], 1, 0⟩, 0⟩) = [50] ∧
        answerTimes (.block 2 p 3) (execRunHistory b farPeer (fun _ => 50) (.block 2 p 3) 9 0 ⟨(initPeer farPeer farStart).2, ⟨[], 1, 0⟩, 0⟩) = [100] := by
      intro b
      rcases (show p = 0 ∨ p = 1 by omega) with rfl | rfl <;> cases b <;> decide +kernel
    intro k a h
    rw [(key _).2] at h
    rw [(key _).1]
    match k, h with
    | 0, h => simp at h; exact ⟨50, rfl, by omega⟩

/-- Non-vacuity: in every run in which a torrent of three bytes (see the example for C113) is known, slow enough a clock makes its peers far away. -/
theorem far_run {w : World} {Q : Info → Prop} {fs : FS} {n : Nat} {run : Nat → App} (h : Run w Q fs n run) {k : Nat} {s : Slot}
    (hk : (run 0).proc.slots[k]? = some s) (hi : s.sys.torrent.info = some (threeBytes w.sha)) : ∃ T, Far w run k (fun i => i * T) (threeBytes w.sha) 1 50 := by
  obtain ⟨f, f0, v⟩ := run_view h hk hi
  refine ⟨attemptTime w.build farPeer 0 (fun _ => 50) (.block 2 0 3) 9 farStart + attemptTime w.build farPeer 0 (fun _ => 50) (.block 2 1 3) 9 farStart,
    fun i => Nat.mul_le_mul_right _ (Nat.le_succ i), fun p i j s t u hij _ _ hb _ _ _ _ => ?_⟩
  obtain ⟨x, h1, h2⟩ := hb j (by omega) (Nat.le_refl _)
  have hx := v.at_ j
  rw [h1] at hx
  cases hx
  have hp : p < 2 := by
    have : p ∈ List.range (wrappedCount (threeBytes w.sha)) := (v.known j).perm.mem_iff.mp (by
      simp only [flight, List.mem_append]
      exact .inl (.inl (.inr (.inl (.inr h2)))))
    simpa [wrappedCount, threeBytes] using this
  refine ⟨_, far_three w p hp, ?_⟩
  have e := Nat.mul_le_mul_right (attemptTime w.build farPeer 0 (fun _ => 50) (.block 2 0 3) 9 farStart + attemptTime w.build farPeer 0 (fun _ => 50) (.block 2 1 3) 9 farStart)
    (show i + 1 + 1 ≤ j + 1 by omega)
  simp only [Nat.add_mul (i + 1) 1, Nat.one_mul] at e
  rcases (show p = 0 ∨ p = 1 by omega) with rfl | rfl <;> omega

end RustBit
