/-
Property C87: writing to a disk that fails.
-/
import Verif.Proofs.Disk
import Verif.Props.EndToEnd

namespace RustBit
open Spec

/-! ### C87 -/

/-- Successive calls of `write` for the pieces of `d` with the given indices, each with the events of the disk from a time of its own on. -/
def writePiecesFaulty {ε : Type} (disk : Disk) (m : Build) (cwd : Loc) (files : List File) (d : Bytes) (pl : Nat) :
    FS → List (Nat × Nat) → Res ε Unit × FS
  | fs, [] => (.ok (), fs)
  | fs, (t, i) :: is => match (writePieceFaulty disk t m cwd fs (piece d pl i) i files pl : Res ε Unit × FS) with
    | (.ok (), fs1) => writePiecesFaulty disk m cwd files d pl fs1 is
    | r => r

/-- On a sound disk this is what was considered before. -/
theorem writeAllFaulty_sound {ε : Type} {disk : Disk} {n : Nat} {cwd : Loc} (hs : Sound disk n) (ws : List FileWriter)
    (hn : ∀ w ∈ ws, w.piece.length ≤ n) : ∀ t fs, (writeAllFaulty disk cwd t fs ws : Res ε Unit × FS) = writeAllParts cwd fs ws := by
  induction ws with
  | nil => intro t fs; rfl
  | cons w ws ih =>
    intro t fs
    obtain ⟨h1, h2, k, h3, h4⟩ := hs t
    have hw := hn w (List.mem_cons_self ..)
    rw [writeAllFaulty, writeAllParts, writeFaulty_sound h1 h2 h3 (by omega)]
    rcases (w.writeToFilesystem cwd fs : Res ε Unit × FS) with ⟨r, fs1⟩
    cases r with
    | ok u => exact ih (fun w hw => hn w (List.mem_cons_of_mem _ hw)) _ _
    | err e => rfl
    | panic => rfl
    | hang => rfl

theorem writeAllFaulty_reported {ε : Type} {disk : Disk} {n : Nat} {cwd : Loc} (hs : NeverShort disk n) (ws : List FileWriter)
    (hn : ∀ w ∈ ws, w.piece.length ≤ n) : ∀ t fs fs', (writeAllFaulty disk cwd t fs ws : Res ε Unit × FS) = (.ok (), fs') →
    (writeAllParts cwd fs ws : Res ε Unit × FS) = (.ok (), fs') := by
  induction ws with
  | nil => intro t fs fs' h; exact h
  | cons w ws ih =>
    intro t fs fs' h
    have hw := hn w (List.mem_cons_self ..)
    rw [writeAllFaulty] at h
    rw [writeAllParts]
    cases hf : (w.writeFaulty (disk t) cwd fs : Res ε Unit × FS) with
    | mk r fs1 =>
      rw [hf] at h
      cases r with
      | ok u =>
        obtain ⟨k, hk, e⟩ := writeFaulty_ok hf
        have := hs t k hk
        rw [List.take_of_length_le (by omega)] at e
        rw [show (w.writeToFilesystem cwd fs : Res ε Unit × FS) = (.ok (), fs1) from e]
        exact ih (fun w hw => hn w (List.mem_cons_of_mem _ hw)) _ _ _ h
      | err e => cases h
      | panic => cases h
      | hang => cases h

theorem fileWritersLoop_sizes {ε : Type} (m : Build) (piece : Bytes) : ∀ (files : List File) (p : FileParser) (acc ws : List FileWriter),
    (∀ w ∈ acc, w.piece.length ≤ piece.length) → (fileWritersLoop m piece files p acc : Res ε _) = .ok ws → ∀ w ∈ ws, w.piece.length ≤ piece.length := by
  intro files
  induction files with
  | nil => intro p acc ws ha e; simp only [fileWritersLoop, Res.ok.injEq] at e; rw [← e]; exact ha
  | cons f files ih =>
    intro p acc ws ha e
    rw [fileWritersLoop] at e
    obtain ⟨p1, -, e⟩ := bind_eq_ok e
    split at e
    · obtain ⟨p2, -, e⟩ := bind_eq_ok e
      obtain ⟨a, -, e⟩ := bind_eq_ok e
      obtain ⟨b, -, e⟩ := bind_eq_ok e
      obtain ⟨i, -, e⟩ := bind_eq_ok e
      obtain ⟨j, -, e⟩ := bind_eq_ok e
      obtain ⟨part, hpart, e⟩ := bind_eq_ok e
      obtain ⟨more, -, e⟩ := bind_eq_ok e
      have ha' : ∀ w ∈ acc ++ [⟨f.path, a, b, part⟩], w.piece.length ≤ piece.length := by
        intro w hw
        rcases List.mem_append.mp hw with hw | hw
        · exact ha w hw
        · rw [List.mem_singleton.mp hw]
          unfold slice at hpart
          split at hpart
          · cases hpart
            simp only [List.length_drop, List.length_take]
            omega
          · cases hpart
      split at e
      · exact ih _ _ _ ha' e
      · cases e; exact ha'
    · exact ih _ _ _ ha e

theorem getFileWriters_sizes {ε : Type} {m : Build} {files : List File} {piece : Bytes} {idx pl : Nat} {ws : List FileWriter}
    (e : (getFileWriters m files piece idx pl : Res ε _) = .ok ws) : ∀ w ∈ ws, w.piece.length ≤ piece.length := by
  unfold getFileWriters at e
  obtain ⟨p, -, e⟩ := bind_eq_ok e
  exact fileWritersLoop_sizes m piece files p [] ws (by simp) e

/-- C87: whatever is listed and whatever is on disk: on a disk that takes all it is given or reports an error, a piece reported as written
has been written in full. Missing: disks that take less than they are given (refuted below). -/
theorem C87_reported_partial {ε : Type} (disk : Disk) (t : Nat) (m : Build) (cwd : Loc) (fs fs' : FS) (pc : Bytes) (idx : Nat) (files : List File)
    (pl : Nat) (hs : NeverShort disk pc.length) (h : (writePieceFaulty disk t m cwd fs pc idx files pl : Res ε Unit × FS) = (.ok (), fs')) :
    (writePiece m cwd fs pc idx files pl : Res ε Unit × FS) = (.ok (), fs') := by
  unfold writePieceFaulty at h
  unfold writePiece
  cases hw : (getFileWriters m files pc idx pl : Res ε _) with
  | ok ws =>
    rw [hw] at h
    exact writeAllFaulty_reported hs ws (getFileWriters_sizes hw) t fs fs' h
  | err e => rw [hw] at h; cases h
  | panic => rw [hw] at h; cases h
  | hang => rw [hw] at h; cases h

/-- On a sound disk a piece is written, or not, as if there were no errors. -/
theorem C87_sound {ε : Type} (disk : Disk) (t : Nat) (m : Build) (cwd : Loc) (fs : FS) (pc : Bytes) (idx : Nat) (files : List File)
    (pl : Nat) (hs : Sound disk pc.length) :
    (writePieceFaulty disk t m cwd fs pc idx files pl : Res ε Unit × FS) = writePiece m cwd fs pc idx files pl := by
  unfold writePieceFaulty writePiece
  cases hw : (getFileWriters m files pc idx pl : Res ε _) with
  | ok ws => exact writeAllFaulty_sound hs ws (getFileWriters_sizes hw) t fs
  | err e => rfl
  | panic => rfl
  | hang => rfl

/-- What successive writes to an arbitrary disk come to. -/
theorem writePiecesFaulty_spec {ε : Type} {disk : Disk} {m : Build} {cwd : Loc} {files : List File} {d : Bytes} {pl : Nat}
    (order : List (Nat × Nat)) : ∀ {fs : FS}, Placeable cwd fs files d pl → (∀ e ∈ order, e.2 < pieceCount d.length pl) →
    ∃ r fs', (writePiecesFaulty disk m cwd files d pl fs order : Res ε Unit × FS) = (r, fs') ∧ (r = .ok () ∨ r = .panic) ∧
      Placeable cwd fs' files d pl ∧ (∀ p, Right files d p → OnDisk fs cwd files p → OnDisk fs' cwd files p) ∧
      (∀ g ∈ files, beyond fs' cwd g = beyond fs cwd g) ∧
      (r = .ok () → ∀ e ∈ order, ∃ ps, PieceParts ε m files d pl e.2 ps ∧ ∀ (i : Nat) p, ps[i]? = some p →
        ∃ n, (disk (e.1 + i)).takes = some n ∧ OnDisk fs' cwd files (p.upTo n)) := by
  induction order with
  | nil => intro fs hl _; exact ⟨_, fs, rfl, .inl rfl, hl, fun _ _ h => h, fun _ _ => rfl, by simp⟩
  | cons e es ih =>
    intro fs hl hi
    obtain ⟨t, i⟩ := e
    obtain ⟨ps, hps⟩ := pieceParts (ε := ε) (m := m) hl.length hl.small hl.pieceLength (hi (t, i) (by simp))
    obtain ⟨r1, fs1, e1, c1, g1, k1, b1, o1, -⟩ := write_faulty (ε := ε) disk ps (t := t) hl.plain hl.separate hl.clear hps.right
    have hl1 : Placeable cwd fs1 files d pl := ⟨hl.plain, hl.separate, g1, hl.length, hl.small, hl.pieceLength⟩
    rw [writePiecesFaulty, writePieceFaulty, hps.writers]
    simp only []
    rw [e1]
    rcases c1 with rfl | rfl
    · obtain ⟨r2, fs2, e2, c2, g2, k2, b2, o2⟩ := ih (fs := fs1) hl1 (fun j hj => hi j (List.mem_cons_of_mem _ hj))
      refine ⟨r2, fs2, e2, c2, g2, fun p hp ho => k2 p hp (k1 p hp ho), fun g hg => (b2 g hg).trans (b1 g hg), fun hr j hj => ?_⟩
      rcases List.mem_cons.mp hj with rfl | hj
      · refine ⟨ps, hps, fun i p hp => ?_⟩
        obtain ⟨n, hn, ho⟩ := o1 rfl i p hp
        exact ⟨n, hn, k2 _ (right_upTo (hps.right p (List.mem_of_getElem? hp)) n) ho⟩
      · exact o2 hr j hj
    · exact ⟨_, fs1, rfl, .inr rfl, hl1, k1, b1, fun h => by cases h⟩

theorem upTo_all {p : Part} {n : Nat} (h : p.data.length ≤ n) : p.upTo n = p := by
  unfold Part.upTo
  rw [List.take_of_length_le h]

/-- C87: whatever the disk does, and wherever the writing of further pieces stops, the pieces on disk before stay intact. Missing: the
conditions of C51. -/
theorem C87_intact_partial {ε : Type} (disk : Disk) (m : Build) (cwd : Loc) (fs : FS) (files : List File) (d : Bytes) (pl : Nat)
    (order : List (Nat × Nat)) (h : Placeable cwd fs files d pl) (ho : ∀ e ∈ order, e.2 < pieceCount d.length pl) (i : Nat)
    (hb : ∃ ps, PieceParts ε m files d pl i ps ∧ ∀ p ∈ ps, OnDisk fs cwd files p) (g : Nat) (h1 : i * pl ≤ g) (h2 : g < (i + 1) * pl)
    (h3 : g < d.length) :
    diskByte (writePiecesFaulty disk m cwd files d pl fs order : Res ε Unit × FS).2 cwd files g = d[g]? := by
  obtain ⟨ps, hps, hod⟩ := hb
  obtain ⟨r, fs', e, -, -, k, -, -⟩ := writePiecesFaulty_spec (ε := ε) (disk := disk) (m := m) order h ho
  rw [e]
  exact pieceParts_byte hps (fun p hp => k p (hps.right p hp) (hod p hp)) h1 h2 h3

/-- C87: once all pieces are reported as written every file is as published, followed by what was beyond its listed length before, on a disk that
takes all it is given or reports an error; so the files are right exactly if no longer file was in the way. Missing: disks that take less than they
are given; the conditions of C51. -/
theorem C87_exactly_partial {ε : Type} (disk : Disk) (m : Build) (cwd : Loc) (fs fs' : FS) (files : List File) (d : Bytes) (pl : Nat)
    (order : List (Nat × Nat)) (h : Placeable cwd fs files d pl) (hs : NeverShort disk d.length) (ho : ∀ e ∈ order, e.2 < pieceCount d.length pl)
    (hall : ∀ i, i < pieceCount d.length pl → ∃ t, (t, i) ∈ order)
    (hr : (writePiecesFaulty disk m cwd files d pl fs order : Res ε Unit × FS) = (.ok (), fs')) :
    FilesOver fs fs' cwd files d ∧ (FilesRight fs' cwd files d ↔ NoneLonger fs cwd files) := by
  obtain ⟨r, fs1, e, -, hl, -, hb, hod⟩ := writePiecesFaulty_spec (ε := ε) (disk := disk) (m := m) order h ho
  rw [hr] at e
  obtain ⟨rfl, rfl⟩ := Prod.mk.inj e
  have hover : FilesOver fs fs' cwd files d := by
    intro k f hk hpos
    have := files_beyond (ε := ε) (m := m) hl (fun i hi => by
      obtain ⟨t, ht⟩ := hall i hi
      obtain ⟨ps, hps, hp⟩ := hod rfl (t, i) ht
      refine ⟨ps, hps, fun p hpm => ?_⟩
      obtain ⟨j, hj⟩ := List.getElem?_of_mem hpm
      obtain ⟨n, hn, hon⟩ := hp j p hj
      have hle : p.data.length ≤ d.length := by
        obtain ⟨f, hf, hl1, -⟩ := hps.right p hpm
        have := fileStart_total hf
        rw [h.length] at this
        omega
      rw [upTo_all (Nat.le_trans hle (hs _ _ hn))] at hon
      exact hon) k f hk hpos
    rw [this, hb f (List.mem_of_getElem? hk)]
    rfl
  exact ⟨hover, over_right hover⟩

/-- C87: once all pieces are reported as written the files are right, on a disk that takes all it is given or reports an error. Missing: disks
that take less than they are given; the conditions of C51. -/
theorem C87_files_partial {ε : Type} (disk : Disk) (m : Build) (cwd : Loc) (fs fs' : FS) (files : List File) (d : Bytes) (pl : Nat)
    (order : List (Nat × Nat)) (h : Layout cwd fs files d pl) (hs : NeverShort disk d.length) (ho : ∀ e ∈ order, e.2 < pieceCount d.length pl)
    (hall : ∀ i, i < pieceCount d.length pl → ∃ t, (t, i) ∈ order)
    (hr : (writePiecesFaulty disk m cwd files d pl fs order : Res ε Unit × FS) = (.ok (), fs')) :
    ∀ k f, files[k]? = some f → 0 < f.length → readFile fs' (cwd ++ f.path) = some (fileContent files d k f) :=
  over_layout h (C87_exactly_partial disk m cwd fs fs' files d pl order h.placeable hs ho hall hr).1

/-- Non-vacuity: a disk that reports an error in between, so that a piece is repeated by a later session, and one that never does. -/
example : (∃ disk : Disk, NeverShort disk 5 ∧ Layout [b!"home"] sampleFs sampleFiles [1, 2, 3, 4, 5] 2 ∧
    (writePiecesFaulty disk .debug [b!"home"] sampleFiles [1, 2, 3, 4, 5] 2 sampleFs [(0, 1), (2, 0), (4, 2)] : Res Unit Unit × FS).1 = .panic) ∧
    ∃ disk : Disk, NeverShort disk 5 ∧ Sound disk 5 ∧
    (writePiecesFaulty disk .debug [b!"home"] sampleFiles [1, 2, 3, 4, 5] 2 sampleFs [(0, 1), (2, 0), (4, 2)] : Res Unit Unit × FS).1 = .ok () := by
  refine ⟨⟨fun t => ⟨none, true, if t = 2 then none else some 5⟩, ?_, sampleLayout, by decide +kernel⟩,
    ⟨fun _ => ⟨none, true, some 5⟩, fun t k h => ?_, fun t => ⟨rfl, rfl, 5, rfl, by omega⟩, by decide +kernel⟩⟩
  · intro t k h
    simp only [] at h
    split at h
    · cases h
    · cases h; omega
  · cases h; omega

/-- The full C87 is false: a disk that is nearly full takes three of four bytes; the piece is reported as written, the file is short, and nothing
else is done about it. -/
theorem C87_refuted : (writePiecesFaulty (ε := Unit) (fun _ => ⟨none, true, some 3⟩) .debug [] [⟨[b!"a"], 4⟩] [1, 2, 3, 4] 4 (fun _ => none) [(0, 0)]).1 = .ok () ∧
    readFile (writePiecesFaulty (ε := Unit) (fun _ => ⟨none, true, some 3⟩) .debug [] [⟨[b!"a"], 4⟩] [1, 2, 3, 4] 4 (fun _ => none) [(0, 0)]).2 [b!"a"] =
      some [1, 2, 3] := by
  decide +kernel

theorem getFileWriters_whole {ε : Type} (m : Build) (name d : Bytes) (hd : d ≠ []) (hl : d.length < 2 ^ 64) :
    (getFileWriters m [⟨[name], d.length⟩] d 0 d.length : Res ε _) = .ok [⟨[name], 0, d.length, d⟩] := by
  have hpos : 0 < d.length := List.length_pos_iff.mpr hd
  unfold getFileWriters FileParser.new
  rw [umul_ok (by omega)]
  simp only [Res.bind_ok, fileWritersLoop, FileParser.updateRightFileBoundary, Nat.zero_mul]
  rw [uadd_ok (by omega)]
  simp only [Res.bind_ok, FileParser.isPieceInFile, Nat.zero_add, hpos, decide_true, if_true, FileParser.updateEndFileIndex]
  rw [uadd_ok (by omega)]
  simp only [Res.bind_ok, Nat.zero_add, Nat.min_self, FileParser.getStartFileIndex, FileParser.getEndFileIndex, FileParser.getStartPieceIndex,
    FileParser.getEndPieceIndex, FileParser.isPieceFinished]
  rw [usub_ok (Nat.le_refl d.length)]
  simp only [Res.bind_ok, Nat.sub_self]
  rw [usub_ok (Nat.le_refl 0), usub_ok (Nat.zero_le d.length), uadd_ok (by omega)]
  simp [slice]

/-- C87 exactly, for one piece written to a new file: what the disk took is what is there; so the report is right if and only if it took
everything. -/
theorem C87_exact (m : Build) (name d : Bytes) (n : Nat) (hp : Plain [name]) (hd : d ≠ []) (hl : d.length < 2 ^ 64) : ∃ fs',
    (writePieceFaulty (fun _ => ⟨none, true, some n⟩) 0 m [] (fun _ => none) d 0 [⟨[name], d.length⟩] d.length : Res Unit Unit × FS) = (.ok (), fs') ∧
    readFile fs' [name] = some (d.take n) ∧ (readFile fs' [name] = some d ↔ d.length ≤ n) := by
  have hpar := parse_plain _ hp
  have hn := plain_names hp name (by simp)
  rw [writePieceFaulty, getFileWriters_whole m name d hd hl]
  simp only [writeAllFaulty, FileWriter.writeFaulty, hpar, if_true]
  simp only [PathBuf.base, List.dropLast_singleton, FS.createDirAll, List.reverse_nil, FS.createDirAllRev, FS.openCreate, reduceCtorEq, if_false,
    Bool.false_eq_true]
  have hpw : pwrite [] 0 (d.take n) = d.take n := by
    unfold pwrite
    split
    · rename_i h; exact h.symm
    · simp
  simp [hasNul, hn.1, hn.2, FS.walk, FS.set, FS.writeAt, hpw, readFile]
  exact ⟨fun h => by have := congrArg List.length h; simp at this; omega, List.take_of_length_le⟩

/-- Non-vacuity: such a file, name and number of bytes. -/
example : Plain [b!"a"] ∧ ([1, 2, 3, 4] : Bytes) ≠ [] ∧ ¬ ([1, 2, 3, 4] : Bytes).length ≤ 3 := by
  refine ⟨⟨by simp, ?_⟩, by simp, by simp⟩
  intro c hc
  simp only [List.mem_singleton] at hc
  subst hc
  decide

end RustBit
