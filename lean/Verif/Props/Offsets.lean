/-
C55: far offsets.
-/
import Verif.Model.Limits
import Verif.Props.Disk
import Verif.Props.WriterExact
import Verif.Props.FairRuns

namespace RustBit
open Spec

theorem writeFaulty_near {ε : Type} {L : Nat} {cwd : Loc} {w : FileWriter} (h : w.start < L) (fs : FS) :
    (w.writeFaulty (limitEv L w) cwd fs : Res ε Unit × FS) = w.writeToFilesystem cwd fs :=
  writeFaulty_sound (ε := ε) (ev := limitEv L w) (n := w.piece.length) rfl rfl (by simp [limitEv, h]) (Nat.le_refl _)

theorem writeFaulty_far {ε : Type} {L : Nat} {cwd : Loc} {w : FileWriter} (h : ¬ w.start < L) (fs : FS) :
    (w.writeFaulty (limitEv L w) cwd fs : Res ε Unit × FS).1 = .panic := by
  unfold FileWriter.writeFaulty
  simp only [limitEv, h, if_false, if_true]
  split
  · rfl
  · split
    · split <;> rfl
    · rfl

theorem writeAllLimited_ok {ε : Type} {L : Nat} {cwd : Loc} (ws : List FileWriter) : ∀ fs fs', (writeAllLimited L cwd fs ws : Res ε Unit × FS) = (.ok (), fs') ↔
    (writeAllParts cwd fs ws : Res ε Unit × FS) = (.ok (), fs') ∧ ∀ w ∈ ws, w.start < L := by
  induction ws with
  | nil => intro fs fs'; simp [writeAllLimited, writeAllParts]
  | cons w ws ih =>
    intro fs fs'
    rw [writeAllLimited, writeAllParts]
    by_cases h : w.start < L
    · rw [writeFaulty_near h]
      rcases (w.writeToFilesystem cwd fs : Res ε Unit × FS) with ⟨r, fs1⟩
      cases r with
      | ok u =>
        simp only [List.mem_cons, forall_eq_or_imp]
        rw [ih]
        exact ⟨fun ⟨a, b⟩ => ⟨a, h, b⟩, fun ⟨a, _, b⟩ => ⟨a, b⟩⟩
      | err e => simp
      | panic => simp
      | hang => simp
    · have hf := writeFaulty_far (ε := ε) (cwd := cwd) h fs
      rcases hx : (w.writeFaulty (limitEv L w) cwd fs : Res ε Unit × FS) with ⟨r, fs1⟩
      rw [hx] at hf
      simp only at hf
      subst hf
      simp only [List.mem_cons, forall_eq_or_imp, h, false_and, and_false, iff_false]
      intro e
      cases e

/-- C55, exactly, on a system that refuses offsets from `L` on: a piece is written just if it would be otherwise and none of its parts begins there; and
then the same is on the disk. -/
theorem C55_offsets {ε : Type} (L : Nat) (m : Build) (cwd : Loc) (fs fs' : FS) (pc : Bytes) (idx : Nat) (files : List File) (pl : Nat) :
    (writePieceLimited L m cwd fs pc idx files pl : Res ε Unit × FS) = (.ok (), fs') ↔
      (writePiece m cwd fs pc idx files pl : Res ε Unit × FS) = (.ok (), fs') ∧
      ∀ ws, (getFileWriters m files pc idx pl : Res ε _) = .ok ws → ∀ w ∈ ws, w.start < L := by
  unfold writePieceLimited writePiece
  cases hw : (getFileWriters m files pc idx pl : Res ε _) with
  | ok ws =>
    simp only
    rw [writeAllLimited_ok]
    exact ⟨fun ⟨a, b⟩ => ⟨a, fun ws' e => by cases e; exact b⟩, fun ⟨a, b⟩ => ⟨a, b ws rfl⟩⟩
  | err e => simp
  | panic => simp
  | hang => simp

theorem placed_near {files : List File} : ∀ {pos : Nat} {parts : List Part}, Placed files pos parts →
    ∀ p ∈ parts, ∃ f ∈ files, p.offset ≤ f.length := by
  intro pos parts
  induction parts generalizing pos with
  | nil => intro _ p hp; cases hp
  | cons q qs ih =>
    rintro ⟨⟨f, h1, h2⟩, -, h3⟩ p hp
    rcases List.mem_cons.mp hp with rfl | hp
    · exact ⟨f, List.mem_of_getElem? h1, by omega⟩
    · exact ih h3 p hp

/-- C55: if all files are shorter than `L` (2^63) bytes, far offsets do not occur. Missing: longer files (refuted below). -/
theorem C55_offsets_partial {ε : Type} (L : Nat) (m : Build) (cwd : Loc) (fs fs' : FS) (pc : Bytes) (idx : Nat) (files : List File) (pl : Nat)
    (hr : Reckonable files (idx * pl) pc.length) (hL : ∀ f ∈ files, f.length < L) :
    (writePieceLimited L m cwd fs pc idx files pl : Res ε Unit × FS) = (.ok (), fs') ↔
      (writePiece m cwd fs pc idx files pl : Res ε Unit × FS) = (.ok (), fs') := by
  rw [C55_offsets]
  refine ⟨fun h => h.1, fun h => ⟨h, fun ws hw w hm => ?_⟩⟩
  obtain ⟨parts, h1, h2, -⟩ := (C50_exact (ε := ε) m files pc idx pl).1 hr
  rw [hw] at h1
  cases h1
  obtain ⟨p, hp, rfl⟩ := List.mem_map.mp hm
  obtain ⟨f, hf, hle⟩ := placed_near h2 p hp
  exact Nat.lt_of_le_of_lt hle (hL f hf)

/-- C55 is false for far offsets: of a torrent with one file of 2^63 + 5 bytes and pieces of 2^63 bytes, whatever its hashes, the second piece (of five bytes)
can be verified, and writing it panics. -/
theorem C55_refuted_offsets (sha : Bytes → Bytes) (hs : ∀ x, (sha x).length = 20) (m : Build) :
    let info : Info := ⟨none, some (2 ^ 63 + 5), b!"a", 2 ^ 63, List.replicate 20 0 ++ sha [1, 2, 3, 4, 5]⟩
    (info.verifyPiece sha [1, 2, 3, 4, 5] 1 : Res Unit Bool) = .ok true ∧ info.getFiles = .ok [⟨[b!"a"], 2 ^ 63 + 5⟩] ∧
    (writePieceLimited (2 ^ 63) m [] (fun _ => none) [1, 2, 3, 4, 5] 1 [⟨[b!"a"], 2 ^ 63 + 5⟩] (2 ^ 63) : Res Unit Unit × FS).1 = .panic ∧
    (writePiece m [] (fun _ => none) [1, 2, 3, 4, 5] 1 [⟨[b!"a"], 2 ^ 63 + 5⟩] (2 ^ 63) : Res Unit Unit × FS).1 = .ok () := by
  refine ⟨?_, rfl, ?_, ?_⟩
  · have e : (chunksExact 20 (List.replicate 20 0 ++ sha [1, 2, 3, 4, 5]))[1]? = some (sha [1, 2, 3, 4, 5]) := by
      unfold chunksExact
      rw [List.length_append, hs]
      have h1 := hs [1, 2, 3, 4, 5]
      simp [List.take_of_length_le (Nat.le_of_eq h1)]
    simp only [Info.verifyPiece, Info.getPiece, e]
    simp [Bind.bind, Res.bind]
  · cases m <;> decide +kernel
  · cases m <;> decide +kernel

example : Reckonable [⟨[b!"a"], 2⟩, ⟨[b!"b"], 3⟩] (1 * 2) 2 ∧ (∀ f ∈ ([⟨[b!"a"], 2⟩, ⟨[b!"b"], 3⟩] : List File), f.length < 2 ^ 63) := by
  refine ⟨?_, by decide⟩
  refine ⟨by decide, .inr ⟨by decide, ?_⟩⟩
  intro k f h _
  match k, h with
  | 0, h => cases h; decide
  | 1, h => cases h; decide

/-- C55: a piece that is not written makes the writer panic; nothing else can happen. -/
theorem C55_offsets_or {ε : Type} (L : Nat) (m : Build) (cwd : Loc) (fs : FS) (pc : Bytes) (idx : Nat) (files : List File) (pl : Nat) :
    (writePieceLimited L m cwd fs pc idx files pl : Res ε Unit × FS).1 = .ok () ∨ (writePieceLimited L m cwd fs pc idx files pl : Res ε Unit × FS).1 = .panic := by
  have one : ∀ (w : FileWriter) (fs : FS), (w.writeFaulty (limitEv L w) cwd fs : Res ε Unit × FS).1 = .ok () ∨
      (w.writeFaulty (limitEv L w) cwd fs : Res ε Unit × FS).1 = .panic := by
    intro w fs
    unfold FileWriter.writeFaulty
    dsimp only
    repeat' split
    all_goals first | exact .inl rfl | exact .inr rfl
  have all : ∀ (ws : List FileWriter) (fs : FS), (writeAllLimited L cwd fs ws : Res ε Unit × FS).1 = .ok () ∨ (writeAllLimited L cwd fs ws : Res ε Unit × FS).1 = .panic := by
    intro ws
    induction ws with
    | nil => exact fun _ => .inl rfl
    | cons w ws ih =>
      intro fs
      rw [writeAllLimited]
      have h1 := one w fs
      rcases hx : (w.writeFaulty (limitEv L w) cwd fs : Res ε Unit × FS) with ⟨r, fs1⟩
      rw [hx] at h1
      rcases h1 with h1 | h1 <;> cases h1
      · exact ih fs1
      · exact .inr rfl
  unfold writePieceLimited
  rcases getFileWriters_okOrPanic (ε := ε) m files pc idx pl with ⟨ws, e⟩ | e
  · rw [e]; exact all ws fs
  · rw [e]; exact .inr rfl

/-- Both happen: a piece whose place is beyond all numbers panics before anything is done. -/
example : (writePieceLimited 100 .debug [] (fun _ => none) [1] 2 [⟨[b!"a"], 7⟩] (2 ^ 63) : Res Unit Unit × FS).1 = .panic ∧
    (writePieceLimited 100 .debug [] (fun _ => none) [1] 2 [⟨[b!"a"], 7⟩] 3 : Res Unit Unit × FS).1 = .ok () := by decide +kernel

end RustBit
