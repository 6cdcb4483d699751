/-
C50 without assumptions: for which file lists and pieces the splitting of a piece works, and what happens otherwise.
-/
import Verif.Proofs.Writer

namespace RustBit
open Spec

/-- A piece of `len` bytes at position `n` can be reckoned with in 64 bits: it lies behind the last file, or its end and the ends of all files
that begin before it ends are below 2^64. -/
def Reckonable (files : List File) (n len : Nat) : Prop :=
  n < 2 ^ 64 ∧ (total files ≤ n ∨ n + len < 2 ^ 64 ∧
    ∀ k f, files[k]? = some f → fileStart files k < max (n + 1) (n + len) → fileStart files k + f.length < 2 ^ 64)

theorem fileWritersLoop_behind {ε : Type} (m : Build) (piece : Bytes) : ∀ (files : List File) (p : FileParser) (acc : List FileWriter),
    p.offset < 2 ^ 64 → p.rightFileBoundary + total files ≤ p.offset → (fileWritersLoop m piece files p acc : Res ε _) = .ok acc
  | [], _, _, _, _ => rfl
  | f :: files, p, acc, h, ht => by
    have htot : total (f :: files) = f.length + total files := by simp [total]
    rw [fileWritersLoop]
    simp only [FileParser.updateRightFileBoundary]
    rw [uadd_ok (by omega)]
    have hin : ¬ p.offset < p.rightFileBoundary + f.length := by omega
    simp only [Res.bind_ok, FileParser.isPieceInFile, hin, decide_false, Bool.false_eq_true, if_false]
    exact fileWritersLoop_behind m piece files _ acc h (by simp only; omega)

theorem fileWritersLoop_panics {ε : Type} (piece : Bytes) : ∀ (files : List File) (rb off e : Nat) (acc : List FileWriter),
    (rb ≤ off ∨ rb < off + piece.length) →
    (2 ^ 64 ≤ off + piece.length ∧ off < rb + total files ∧ rb ≤ off ∨
      ∃ k f, files[k]? = some f ∧ rb + fileStart files k < max (off + 1) (off + piece.length) ∧ 2 ^ 64 ≤ rb + fileStart files k + f.length) →
    (fileWritersLoop .debug piece files ⟨piece.length, off, max off rb, e, rb⟩ acc : Res ε _) = .panic := by
  intro files
  induction files with
  | nil =>
    intro rb off e acc _ h
    rcases h with ⟨_, h, h'⟩ | ⟨k, f, h, _⟩
    · simp [total] at h; omega
    · simp at h
  | cons f files ih =>
    intro rb off e acc hrb h
    have htot : total (f :: files) = f.length + total files := by simp [total]
    rw [fileWritersLoop]
    simp only [FileParser.updateRightFileBoundary]
    by_cases hov : rb + f.length < 2 ^ 64
    · rw [uadd_ok hov]
      simp only [Res.bind_ok, FileParser.isPieceInFile]
      have hnext : (∃ k g, (f :: files)[k]? = some g ∧ rb + fileStart (f :: files) k < max (off + 1) (off + piece.length) ∧
          2 ^ 64 ≤ rb + fileStart (f :: files) k + g.length) →
          ∃ k g, files[k]? = some g ∧ rb + f.length + fileStart files k < max (off + 1) (off + piece.length) ∧
          2 ^ 64 ≤ rb + f.length + fileStart files k + g.length := by
        rintro ⟨k, g, hk, h1, h2⟩
        cases k with
        | zero =>
          simp only [List.getElem?_cons_zero, Option.some.injEq] at hk
          subst hk
          simp only [fileStart, List.take_zero, List.map_nil, List.sum_nil] at h2
          omega
        | succ k =>
          have hs : fileStart (f :: files) (k + 1) = f.length + fileStart files k := by simp [fileStart]
          exact ⟨k, g, by simpa using hk, by omega, by omega⟩
      by_cases hin : off < rb + f.length
      · simp only [hin, decide_true, if_true, FileParser.updateEndFileIndex]
        by_cases hp : off + piece.length < 2 ^ 64
        · rcases h with h | h
          · omega
          obtain ⟨k, g, hk, h1, h2⟩ := hnext h
          rw [uadd_ok hp]
          simp only [Res.bind_ok, FileParser.getStartFileIndex, FileParser.getEndFileIndex, FileParser.getStartPieceIndex,
            FileParser.getEndPieceIndex, FileParser.isPieceFinished]
          have hmore : off + piece.length > rb + f.length := by omega
          have e1 : (usub .debug (rb + f.length) f.length : Res ε Nat) = .ok rb := by rw [usub_ok (by omega)]; congr 1; omega
          have hmin : min (rb + f.length) (off + piece.length) = rb + f.length := by omega
          have e2 : (usub .debug (max off rb) rb : Res ε Nat) = .ok (max off rb - rb) := usub_ok (by omega)
          have e3 : (usub .debug (rb + f.length) rb : Res ε Nat) = .ok (rb + f.length - rb) := usub_ok (by omega)
          have e4 : (usub .debug (max off rb) off : Res ε Nat) = .ok (max off rb - off) := usub_ok (by omega)
          have e5 : (usub .debug (rb + f.length) off : Res ε Nat) = .ok (rb + f.length - off) := usub_ok (by omega)
          simp only [e1, Res.bind_ok, hmin, e2, e3, e4, e5]
          rw [slice_of_le (by omega) (by omega), uadd_ok hp]
          simp only [Res.bind_ok, hmore, decide_true, if_true, FileParser.updateStartFileIndex]
          have hmax : rb + f.length = max off (rb + f.length) := by omega
          have := ih (rb + f.length) off (rb + f.length)
            (acc ++ [⟨f.path, max off rb - rb, rb + f.length - rb, (piece.take (rb + f.length - off)).drop (max off rb - off)⟩])
            (.inr (by omega)) (.inr ⟨k, g, hk, h1, h2⟩)
          rw [← hmax] at this
          exact this
        · simp only [uadd, hp, if_false]
          rfl
      · simp only [hin, decide_false, Bool.false_eq_true, if_false]
        have hm : max off rb = max off (rb + f.length) := by omega
        rw [hm]
        refine ih (rb + f.length) off e acc (.inl (by omega)) ?_
        rcases h with ⟨h1, h2, h3⟩ | h
        · exact .inl ⟨h1, by omega, by omega⟩
        · exact .inr (hnext h)
    · simp only [uadd, hov, if_false]
      rfl

/-- C50, exactly: in a debug build a piece is split — into parts that are placed rightly and make up the piece, clipped at the end — just if it
can be reckoned with; otherwise the build panics. A release build splits it in the same way if it can be reckoned with. -/
theorem C50_exact {ε : Type} (m : Build) (files : List File) (piece : Bytes) (idx pl : Nat) :
    (Reckonable files (idx * pl) piece.length → ∃ parts : List Part,
      (getFileWriters m files piece idx pl : Res ε _) = .ok (parts.map (fun p =>
        ⟨pathOf files p.file, p.offset, p.offset + p.data.length, p.data⟩)) ∧
      Placed files (idx * pl) parts ∧ (parts.map Part.file).Pairwise (· < ·) ∧
      parts.flatMap Part.data = piece.take (total files - idx * pl)) ∧
    (¬ Reckonable files (idx * pl) piece.length → (getFileWriters .debug files piece idx pl : Res ε _) = .panic) := by
  constructor
  · rintro ⟨hn, h⟩
    by_cases hb : total files ≤ idx * pl
    · refine ⟨[], ?_, trivial, by simp, ?_⟩
      · unfold getFileWriters FileParser.new
        rw [umul_ok hn]
        exact fileWritersLoop_behind m piece files _ [] hn (by simpa using hb)
      · rw [show total files - idx * pl = 0 by omega]; simp
    · obtain ⟨hp, hf⟩ := h.resolve_left hb
      obtain ⟨parts, h1, h2, h3, h4, -⟩ := getFileWriters_specG (ε := ε) m files piece idx pl hf hp
      exact ⟨parts, h1, h2, h3, h4⟩
  · intro h
    unfold getFileWriters FileParser.new
    by_cases hn : idx * pl < 2 ^ 64
    · rw [umul_ok hn]
      simp only [Res.bind_ok]
      have hz : max (idx * pl) 0 = idx * pl := by omega
      have := fileWritersLoop_panics (ε := ε) piece files 0 (idx * pl) 0 [] (.inl (by omega))
      rw [hz] at this
      apply this
      by_cases hp : idx * pl + piece.length < 2 ^ 64
      · right
        apply Classical.byContradiction
        intro hc
        refine h ⟨hn, .inr ⟨hp, fun k f hk hl => ?_⟩⟩
        apply Classical.byContradiction
        intro hge
        exact hc ⟨k, f, hk, by omega, by omega⟩
      · left
        refine ⟨by omega, ?_, by omega⟩
        apply Classical.byContradiction
        intro hc
        exact h ⟨hn, .inl (by omega)⟩
    · simp only [umul, hn, if_false]
      rfl

/-- Non-vacuity: the first piece of a torrent whose lengths add up to 2^64 can be reckoned with, the last one cannot. -/
example : Reckonable [⟨[b!"a"], 2 ^ 63⟩, ⟨[b!"b"], 2 ^ 63⟩] 0 4 ∧ ¬ Reckonable [⟨[b!"a"], 2 ^ 63⟩, ⟨[b!"b"], 2 ^ 63⟩] (2 ^ 63) 4 := by
  constructor
  · refine ⟨by omega, .inr ⟨by omega, fun k f hk hl => ?_⟩⟩
    match k with
    | 0 => simp at hk; subst hk; simp [fileStart]
    | 1 => simp [fileStart] at hl
    | k + 2 => simp at hk
  · rintro ⟨-, h | ⟨-, h⟩⟩
    · simp [total] at h
    · have := h 1 _ rfl (by simp [fileStart])
      simp [fileStart] at this

/-- A release build goes wrong in silence then: a piece of the second file is dropped, and a byte of the second file is put at the beginning of
the first. -/
theorem C50_refuted_release :
    (getFileWriters .release [⟨[b!"a"], 2 ^ 63⟩, ⟨[b!"b"], 2 ^ 63⟩] [1, 2, 3, 4] 1 (2 ^ 63) : Res Unit _) = .ok [] ∧
    Placed [⟨[b!"a"], 2 ^ 63⟩, ⟨[b!"b"], 2 ^ 63⟩] (1 * 2 ^ 63) [⟨1, 0, [1, 2, 3, 4]⟩] ∧
    (getFileWriters .release [⟨[b!"a"], 2 ^ 64 - 1⟩, ⟨[b!"b"], 10⟩] [7] (2 ^ 32) (2 ^ 32) : Res Unit _) = .ok [⟨[b!"a"], 0, 1, [7]⟩] ∧
    Placed [⟨[b!"a"], 2 ^ 64 - 1⟩, ⟨[b!"b"], 10⟩] (2 ^ 32 * 2 ^ 32) [⟨1, 1, [7]⟩] := by
  refine ⟨by decide +kernel, ?_, by decide +kernel, ?_⟩ <;> simp [Placed, fileStart]

end RustBit
