/-
Property C86: how deep the calls of the decoder nest.
-/
import Verif.Proofs.Stack
import Verif.Proofs.Transfer
import Verif.Props.Stream
import Verif.Props.Extension

namespace RustBit
open Spec Decoder

/-! ### C86 -/

/-- C86, exactly: the calls nest as deep as the input is nested up to the point where the decoder stops. -/
theorem C86_exact (n : Nat) (c : Bytes) : Reaches n c ↔ Deep n c := reaches_iff n c

/-- C86 for documents: reading one needs exactly as many calls at a time as it is nested deep. -/
theorem C86_documents (v : BVal) (doc rest : Bytes) (hdoc : IsBencode v doc) (hr : Readable v) (n : Nat) :
    Reaches n (doc ++ rest) ↔ n ≤ nesting v :=
  ⟨fun ⟨f, h⟩ => Nat.le_trans h (depth_doc hdoc hr _ 0 rest (by simp) f), fun h => (reaches_iff _ _).mpr (deep_doc hdoc hr rest h)⟩

/-- Non-vacuity: the sample is nested, and not very deep. -/
example : IsBencode sampleDoc sampleBytes ∧ nesting sampleDoc = 4 ∧ Reaches 4 sampleBytes ∧ ¬ Reaches 5 sampleBytes := by
  have hr : Readable sampleDoc := by simp only [sampleDoc, Readable, ReadableEntries, ReadableElems]; decide
  have hn : nesting sampleDoc = 4 := by decide
  have h := C86_documents sampleDoc sampleBytes [] sample_isBencode hr
  rw [List.append_nil, hn] at h
  exact ⟨sample_isBencode, hn, (h 4).mpr (by omega), fun h4 => absurd ((h 5).mp h4) (by omega)⟩

/-- C86: there are never more calls at a time than the input has bytes (and there is one for the empty input). Missing: a bound for all inputs. -/
theorem C86_bounded_partial (n : Nat) (c : Bytes) (h : Reaches n c) : n ≤ 1 ∨ n ≤ c.length := deep_length ((reaches_iff _ _).mp h)

/-- The bound is attained: by a run of the letter l. -/
theorem C86_attained (n : Nat) : Reaches n (List.replicate n 108) := by
  rw [reaches_iff]
  induction n with
  | zero => exact .here (by omega)
  | succ n ih =>
    cases n with
    | zero => exact .here (by omega)
    | succ n =>
      rw [List.replicate_succ]
      refine .list ?_
      rw [List.replicate_succ] at ih ⊢
      exact .inner (by decide) ih

/-- The full C86 is false: for every stack there is a valid, canonical, quite short document that would be read without error on a larger one, and
for which it does not suffice. -/
theorem C86_refuted (limit : Nat) : ∃ v doc, IsBencode v doc ∧ v.Canonical ∧ doc.length = 2 * limit + 2 ∧
    decode doc = .ok (toMeta v, doc.length) ∧ Reaches (limit + 1) doc := by
  obtain ⟨h1, h2, h3, h4⟩ := nest_readable limit
  have hd := nest_isBencode limit
  refine ⟨_, _, hd, h3, by simp [nestDoc]; omega, ?_, ?_⟩
  · simpa using C01_decode_valid_partial _ _ [] hd h1 h2
  · simpa using (C86_documents _ _ [] hd h1 (limit + 1)).mpr (by rw [h4]; exact Nat.le_refl _)

/-- A peer can make use of this: for every stack of less than 159 million calls there is a message that is read from the connection in full, that is
harmless otherwise, and for which the stack does not suffice. -/
theorem C86_refuted_peer (limit : Nat) (hl : limit < 159000000) : ∃ ext payload frame, IsFrame 20 (ext :: payload) frame ∧
    frame.length = 2 * limit + 8 ∧ Reaches (limit + 1) payload ∧
    (∃ m, Message.newRaw (ext :: payload) (payload.length + 1) 20 = .ok m) ∧
    ∀ (net : Net) (c : Conn) (rest : Bytes), c.buf = frame ++ rest → NoFailure net c.t 7 →
      (readStream net c).1 = some (ext :: payload, 20, payload.length + 1) := by
  obtain ⟨h1, h2, h3, h4⟩ := nest_readable limit
  have hd := nest_isBencode limit
  have hlen : (nestDoc limit).length = 2 * limit + 2 := by simp [nestDoc]; omega
  obtain ⟨hf, h13⟩ := wire_frame (x := (20, 0 :: nestDoc limit)) (by simp [hlen]; omega)
  refine ⟨0, nestDoc limit, _, hf, ?_, ?_, ?_, fun net c rest hb hn => ?_⟩
  · obtain ⟨l, hl4, e⟩ := hf
    rw [e]
    simp [hl4.1, hlen]
    omega
  · simpa using (C86_documents _ _ [] hd h1 (limit + 1)).mpr (by rw [h4]; exact Nat.le_refl _)
  · have hdec := C01_decode_valid_partial _ _ [] hd h1 h2
    rw [List.append_nil] at hdec
    obtain ⟨e, he⟩ := (C27_exact 0 (nestDoc limit)).1.mpr ⟨_, _, (decode_ok_iff_header _ _ _).mp hdec⟩
    exact ⟨_, by unfold Message.newRaw Message.contentOf; simp [he]; rfl⟩
  · rw [C28_message_partial net c 20 _ _ rest hf h13 hb hn]
    rfl

end RustBit
