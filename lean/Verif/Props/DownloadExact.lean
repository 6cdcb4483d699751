/-
Property C34: requests and numbers of blocks for all sizes, overflow included.
-/
import Verif.Props.Download

namespace RustBit
open Spec

theorem uadd_release {ε : Type} (a b : Nat) : (uadd .release a b : Res ε Nat) = .ok ((a + b) % 2 ^ 64) := by
  unfold uadd
  split
  · rename_i h; rw [Nat.mod_eq_of_lt h]
  · rfl

theorem umul_release {ε : Type} (a b : Nat) : (umul .release a b : Res ε Nat) = .ok ((a * b) % 2 ^ 64) := by
  unfold umul
  split
  · rename_i h; rw [Nat.mod_eq_of_lt h]
  · rfl

/-- The difference modulo 2^64. -/
def wrapSub (a b : Nat) : Nat := (((a : Int) - (b : Int)) % (2 ^ 64 : Int)).toNat

theorem wrapSub_of_le {a b : Nat} (h : b ≤ a) (ha : a < 2 ^ 64) : wrapSub a b = a - b := by
  unfold wrapSub; omega

theorem usub_release {ε : Type} (a b : Nat) (ha : a < 2 ^ 64) : (usub .release a (b % 2 ^ 64) : Res ε Nat) = .ok (wrapSub a b) := by
  unfold usub wrapSub
  split
  · congr 1; omega
  · simp only [Res.ok.injEq]; omega

theorem uadd_debug {ε : Type} (a b : Nat) : (uadd .debug a b : Res ε Nat) = if a + b < 2 ^ 64 then .ok (a + b) else .panic := rfl

theorem umul_debug {ε : Type} (a b : Nat) : (umul .debug a b : Res ε Nat) = if a * b < 2 ^ 64 then .ok (a * b) else .panic := rfl

theorem usub_debug {ε : Type} (a b : Nat) : (usub .debug a b : Res ε Nat) = if b ≤ a then .ok (a - b) else .panic := rfl

/-- C34, exactly, for all sizes: a debug build requests a block just if it begins inside the torrent (or at its end) and panics otherwise. -/
theorem C34_request_debug {ε : Type} (pl idx total i : Nat) (ht : total < 2 ^ 64) :
    (blockRequest .debug pl idx total i : Res ε Message) =
      if i * 16384 + idx * pl ≤ total then
        .ok (newRequest (idx % 2 ^ 32) (i * 16384 % 2 ^ 32) (min (total - (i * 16384 + idx * pl)) 16384))
      else .panic := by
  unfold blockRequest getBlockSize
  simp only [umul_debug, BLOCK_SIZE]
  generalize idx * pl = P
  by_cases h1 : i * 16384 < 2 ^ 64
  · by_cases h2 : P < 2 ^ 64
    · simp only [h1, h2, if_true, Res.bind_ok, uadd_debug]
      by_cases h3 : i * 16384 + P < 2 ^ 64
      · simp only [h3, if_true, Res.bind_ok, usub_debug]
        by_cases h4 : i * 16384 + P ≤ total
        · simp only [h4, if_true, Res.bind_ok]
          rw [Nat.mod_eq_of_lt (by omega : min (total - (i * 16384 + P)) 16384 < 2 ^ 32)]
        · simp only [h4, if_false]; rfl
      · have h4 : ¬ i * 16384 + P ≤ total := by omega
        simp only [h3, h4, if_false]; rfl
    · have h4 : ¬ i * 16384 + P ≤ total := by omega
      simp only [h1, h2, h4, if_true, if_false]; rfl
  · have h4 : ¬ i * 16384 + P ≤ total := by omega
    simp only [h1, h4, if_false]; rfl

/-- C34, exactly, for all sizes: a release build requests every block it is asked for, with numbers modulo 2^32 and a length computed
modulo 2^64. -/
theorem C34_request_release {ε : Type} (pl idx total i : Nat) (ht : total < 2 ^ 64) :
    (blockRequest .release pl idx total i : Res ε Message) =
      .ok (newRequest (idx % 2 ^ 32) (i * 16384 % 2 ^ 32) (min (wrapSub total (i * 16384 + idx * pl)) 16384)) := by
  unfold blockRequest getBlockSize
  simp only [umul_release, Res.bind_ok, uadd_release, BLOCK_SIZE]
  have e : (i * 16384 % 2 ^ 64 + idx * pl % 2 ^ 64) % 2 ^ 64 = (i * 16384 + idx * pl) % 2 ^ 64 := by
    rw [← Nat.add_mod]
  rw [e, usub_release _ _ ht]
  simp only [Res.bind_ok]
  have h2 : i * 16384 % 2 ^ 64 % 2 ^ 32 = i * 16384 % 2 ^ 32 := by omega
  rw [h2, Nat.mod_eq_of_lt (by omega : min (wrapSub total (i * 16384 + idx * pl)) 16384 < 2 ^ 32)]

/-- C34, exactly: the number of blocks in a debug build; it panics if the end of the piece has more than 64 bits or the piece begins beyond the
end of the torrent. -/
theorem C34_count_debug (pl idx total : Nat) (p : Peer) (hi : idx < 2 ^ 32) (ht : total < 2 ^ 64) :
    ((Downloadable.block pl idx total).capacity .debug p : Res DownloadableError Nat) =
      if pl * (idx + 1) < 2 ^ 64 ∧ pl * idx ≤ total then .ok ((min pl (total - pl * idx) + 16383) / 16384) else .panic := by
  have hs : pl * (idx + 1) = pl * idx + pl := by rw [Nat.mul_add, Nat.mul_one]
  simp only [Downloadable.capacity, realPieceLength, uadd_debug, umul_debug]
  rw [if_pos (by omega)]
  simp only [Res.bind_ok]
  by_cases h1 : pl * (idx + 1) < 2 ^ 64
  · simp only [h1, if_true, Res.bind_ok, true_and]
    rw [hs] at h1 ⊢
    generalize pl * idx = P at *
    by_cases h2 : P + pl > total
    · rw [if_pos h2, if_pos (by omega)]
      simp only [Res.bind_ok, usub_debug]
      by_cases h3 : P ≤ total
      · simp only [h3, if_true, Res.bind_ok]
        rw [stepByLen_spec _ _ (by decide), Res.ok.injEq]
        simp only [BLOCK_SIZE]
        congr 1
        omega
      · simp only [h3, if_false]; rfl
    · rw [if_neg h2, if_pos (by omega)]
      simp only [Res.bind_ok]
      rw [stepByLen_spec _ _ (by decide), Res.ok.injEq]
      simp only [BLOCK_SIZE]
      congr 1
      omega
  · simp only [h1, false_and, if_false]; rfl

/-- C34, exactly: the pieces whose download makes a debug build panic whatever the peer does. -/
theorem C34_panics_debug (pl idx total : Nat) (hi : idx < 2 ^ 32) (ht : total < 2 ^ 64) :
    (∀ net f p, ((Downloadable.block pl idx total).download .debug net f p).1 = .panic) ↔ 2 ^ 64 ≤ pl * (idx + 1) ∨ total < pl * idx := by
  constructor
  · intro h
    rcases Classical.em (pl * (idx + 1) < 2 ^ 64 ∧ pl * idx ≤ total) with hc | hc
    · exfalso
      have := h (fun _ => ⟨[], .up⟩) 0 (Peer.new ⟨[], 0⟩ [] [])
      unfold Downloadable.download at this
      rw [C34_count_debug pl idx total _ hi ht, if_pos hc] at this
      cases this
    · omega
  · intro h net f p
    unfold Downloadable.download
    rw [C34_count_debug pl idx total _ hi ht, if_neg (by omega)]

example : ∀ net f p, ((Downloadable.block 32768 3 50000).download .debug net f p).1 = .panic :=
  (C34_panics_debug 32768 3 50000 (by decide) (by decide)).mpr (by decide)

example : ¬ ∀ net f p, ((Downloadable.block 32768 1 50000).download .debug net f p).1 = .panic :=
  fun h => absurd ((C34_panics_debug 32768 1 50000 (by decide) (by decide)).mp h) (by decide)

/-- C34, exactly: the number of blocks in a release build. -/
theorem C34_count_release (pl idx total : Nat) (p : Peer) (hi : idx < 2 ^ 32) (ht : total < 2 ^ 64) :
    ((Downloadable.block pl idx total).capacity .release p : Res DownloadableError Nat) =
      .ok (((if total < pl * (idx + 1) % 2 ^ 64 then wrapSub total (pl * idx) else pl) + 16383) / 16384) := by
  simp only [Downloadable.capacity, realPieceLength, uadd_release, Res.bind_ok]
  rw [Nat.mod_eq_of_lt (by omega : idx + 1 < 2 ^ 64)]
  simp only [umul_release, Res.bind_ok]
  by_cases h : total < pl * (idx + 1) % 2 ^ 64
  · rw [if_pos h, if_pos h, usub_release _ _ ht]
    simp only [Res.bind_ok]
    rw [stepByLen_spec _ _ (by decide)]
    rfl
  · rw [if_neg h, if_neg h]
    simp only [Res.bind_ok]
    rw [stepByLen_spec _ _ (by decide)]
    rfl

/-- Non-vacuity: a piece length of 2^63 and piece 2, where 2^64 is 0: the request is for the beginning of the torrent. -/
example (p : Peer) : (blockRequest .release (2 ^ 63) 2 100 0 : Res Unit Message) = .ok (newRequest 2 0 100) ∧
    (blockRequest .debug (2 ^ 63) 2 100 0 : Res Unit Message) = .panic ∧
    ((Downloadable.block (2 ^ 63) 2 100).capacity .release p : Res DownloadableError Nat) = .ok 1 := by
  refine ⟨?_, ?_, ?_⟩
  · rw [C34_request_release _ _ _ _ (by decide)]; rfl
  · rw [C34_request_debug _ _ _ _ (by decide)]; rfl
  · rw [C34_count_release _ _ _ _ (by decide) (by decide)]; rfl

end RustBit
