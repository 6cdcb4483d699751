/-
C51, C52, C53 and C55, exactly, for files whose paths are made of anything.
-/
import Verif.Proofs.Anywhere

namespace RustBit
open Spec

theorem anywhere_receptive {ε : Type} {m : Build} {cwd : Loc} {fs fs' : FS} {files : List File} {d : Bytes} {pl : Nat} {order : List Nat}
    (hlen : total files = d.length) (h64 : d.length < 2 ^ 64) (hpl : 0 < pl) (hall : ∀ i, i < pieceCount d.length pl → i ∈ order)
    (h : (writePieces m cwd files d pl fs order : Res ε Unit × FS) = (.ok (), fs')) :
    (∀ k f, Touched files pl k f → Wrote cwd fs fs' f.path) ∧ Grows fs fs' := by
  obtain ⟨hw, hg⟩ := wrote_pieces order h
  refine ⟨fun k f ht => ?_, hg⟩
  obtain ⟨i, hi, hp⟩ := touched_part (ε := ε) (m := m) hlen h64 hpl ht
  obtain ⟨ps, hps⟩ := pieceParts (ε := ε) (m := m) hlen h64 hpl hi
  obtain ⟨p, hpm, rfl⟩ := hp ps hps
  have := hw i (hall i hi) ps hps p hpm
  rwa [show (toWriter files p).path = f.path by simp [toWriter, ht.1]] at this

/-- C55 for a whole download, exactly, whatever the paths are: writing all pieces, in any order and any number of times, succeeds just if the paths of the files that are
written to can be those of files, none of those files is in the place of a directory that has to be there for one of them, and on the disk no file is in the place
of such a directory and no directory in the place of a file. Otherwise it panics. -/
theorem C55_whole {ε : Type} (m : Build) (cwd : Loc) (fs : FS) (files : List File) (d : Bytes) (pl : Nat) (order : List Nat)
    (hlen : total files = d.length) (h64 : d.length < 2 ^ 64) (hpl : 0 < pl)
    (ho : ∀ i ∈ order, i < pieceCount d.length pl) (hall : ∀ i, i < pieceCount d.length pl → i ∈ order) :
    ((writePieces m cwd files d pl fs order : Res ε Unit × FS).1 = .ok () ↔ Receptive cwd fs files pl) ∧
    ((writePieces m cwd files d pl fs order : Res ε Unit × FS).1 = .panic ↔ ¬ Receptive cwd fs files pl) := by
  have hok : (writePieces m cwd files d pl fs order : Res ε Unit × FS).1 = .ok () ↔ Receptive cwd fs files pl := by
    constructor
    · intro h
      obtain ⟨hw, hg⟩ := anywhere_receptive (ε := ε) (m := m) (cwd := cwd) (fs := fs) (fs' := (writePieces m cwd files d pl fs order : Res ε Unit × FS).2)
        hlen h64 hpl hall (by rw [← h])
      refine ⟨fun k f ht => (hw k f ht).servable, fun j k f g hf hg' hway => ?_, fun k f ht => (hw k f ht).noFile, fun k f ht => (hw k f ht).noDir⟩
      obtain ⟨c, hc⟩ := (hw j f hf).file
      rw [(hw k g hg').dirs _ hway] at hc
      cases hc
    · intro h
      obtain ⟨fs', e, -⟩ := anywhere_pieces (ε := ε) (m := m) hlen h64 hpl order h ho
      rw [e]
  have hor : ∀ (order : List Nat) (fs : FS), (∀ i ∈ order, i < pieceCount d.length pl) →
      (writePieces m cwd files d pl fs order : Res ε Unit × FS).1 = .ok () ∨ (writePieces m cwd files d pl fs order : Res ε Unit × FS).1 = .panic := by
    intro order
    induction order with
    | nil => intro fs _; exact .inl rfl
    | cons i is ih =>
      intro fs hi
      obtain ⟨ps, hps⟩ := pieceParts (ε := ε) (m := m) hlen h64 hpl (hi i (by simp))
      have h1 := (writeAllParts_panic (ε := ε) (cwd := cwd) (ws := ps.map (toWriter files)) (fs := fs)).1
      rw [writePieces, writePiece, hps.writers]
      simp only []
      cases hr : (writeAllParts cwd fs (ps.map (toWriter files)) : Res ε Unit × FS) with
      | mk r fs1 =>
        rw [hr] at h1
        cases r with
        | ok u => exact ih fs1 (fun j hj => hi j (List.mem_cons_of_mem _ hj))
        | panic => exact .inr rfl
        | err e => rcases h1 with h1 | h1 <;> cases h1
        | hang => rcases h1 with h1 | h1 <;> cases h1
  refine ⟨hok, fun h hr => ?_, fun h => ?_⟩
  · rw [hok.mpr hr] at h; cases h
  · rcases hor order fs ho with h' | h'
    · exact absurd (hok.mp h') h
    · exact h'

/-- C51, exactly, whatever the paths are: if writing succeeds (`C55_whole`), each non-empty file holds its part of the content in the end if and only if files in the same place have the
same content and no longer file was in the place of one. -/
theorem C51_exactly {ε : Type} (m : Build) (cwd : Loc) (fs : FS) (files : List File) (d : Bytes) (pl : Nat) (order : List Nat)
    (hlen : total files = d.length) (h64 : d.length < 2 ^ 64) (hpl : 0 < pl)
    (ho : ∀ i ∈ order, i < pieceCount d.length pl) (hall : ∀ i, i < pieceCount d.length pl → i ∈ order) (hr : Receptive cwd fs files pl) :
    ∃ fs', (writePieces m cwd files d pl fs order : Res ε Unit × FS) = (.ok (), fs') ∧
      (FilesRight fs' [] (placedFiles cwd files) d ↔
        Agreeing cwd files d ∧ SameLength cwd files ∧ NoneLonger fs [] (placedFiles cwd files)) := by
  obtain ⟨fs', e, -, -, o, -, b⟩ := anywhere_pieces (ε := ε) (m := m) hlen h64 hpl order hr ho
  have content : ∀ k f, files[k]? = some f → (fileContent files d k f).length = f.length ∧ ∀ x, x < f.length → (fileContent files d k f)[x]? = d[fileStart files k + x]? := by
    intro k f hk
    have := fileStart_total hk
    refine ⟨by simp [fileContent]; omega, fun x hx => ?_⟩
    rw [fileContent, List.getElem?_take, if_pos hx, List.getElem?_drop]
  refine ⟨fs', e, fun h => ?_, fun ⟨hA, hS, hN⟩ => ?_⟩
  · have right : ∀ k f, files[k]? = some f → 0 < f.length → readFile fs' (place cwd f.path) = some (fileContent files d k f) := by
      intro k f hk hpos
      have := h k _ (placed_get hk) hpos
      rw [List.nil_append, fileContent, placed_start] at this
      exact this
    have eq : ∀ i j f g, files[i]? = some f → files[j]? = some g → 0 < f.length → 0 < g.length → place cwd f.path = place cwd g.path →
        fileContent files d i f = fileContent files d j g := by
      intro i j f g hi hj h1 h2 he
      have a := right i f hi h1
      rw [he, right j g hj h2] at a
      exact (Option.some.inj a).symm
    refine ⟨fun i j f g hi hj he x hx hy => ?_, fun f hf g hg h1 h2 he => ?_, fun g hg hpos c hc => ?_⟩
    · rw [← (content i f hi).2 x hx, ← (content j g hj).2 x hy, eq i j f g hi hj (by omega) (by omega) he]
    · obtain ⟨i, hi⟩ := List.getElem?_of_mem hf
      obtain ⟨j, hj⟩ := List.getElem?_of_mem hg
      rw [← (content i f hi).1, ← (content j g hj).1, eq i j f g hi hj h1 h2 he]
    · obtain ⟨k, hk⟩ := List.getElem?_of_mem hg
      obtain ⟨f, hf, rfl⟩ := placed_get' hk
      have hgr := (anywhere_receptive (ε := ε) (m := m) hlen h64 hpl hall e).2
      have hc' : fs (place cwd f.path) = some (.file c) := by
        simp only [readFile, List.nil_append] at hc
        cases hx : fs (place cwd f.path) with
        | none => rw [hx] at hc; cases hc
        | some n =>
          cases n with
          | dir => rw [hx] at hc; cases hc
          | file y => rw [hx] at hc; simp only [Option.some.injEq] at hc; rw [hc]
      obtain ⟨c', h1, h2⟩ := hgr.2 _ c hc'
      have := right k f hf hpos
      rw [readFile, h1] at this
      have : c' = fileContent files d k f := Option.some.inj this
      rw [this, (content k f hf).1] at h2
      exact h2
  · intro k g hg hpos
    obtain ⟨f, hf, rfl⟩ := placed_get' hg
    have h1 := files_rest (cwd := cwd) hlen hpl (fun i hi => o hA i (hall i hi)) k f hf hpos
    have h2 : restAt fs' cwd f = [] := by
      rw [b hS f (List.mem_of_getElem? hf) hpos, restAt]
      cases hc : readFile fs (place cwd f.path) with
      | none => simp
      | some c => exact List.drop_of_length_le (hN _ (List.mem_of_getElem? hg) hpos c hc)
    rw [h2, List.append_nil] at h1
    rw [List.nil_append, fileContent, placed_start]
    exact h1

/-- C52, exactly, whatever the paths are: if the paths and the disk are receptive (`C55_whole`), then at every moment, after any pieces and any number of parts of the next one,
the bytes of every piece written are on disk, if and only if files in the same place have the same bytes as far as both go. -/
theorem C52_exactly {ε : Type} (m : Build) (cwd : Loc) (fs : FS) (files : List File) (d : Bytes) (pl : Nat)
    (hlen : total files = d.length) (h64 : d.length < 2 ^ 64) (hpl : 0 < pl) (hr : Receptive cwd fs files pl) :
    (∀ (done : List Nat) (j : Nat) (ws pre : List FileWriter), (∀ i ∈ done, i < pieceCount d.length pl) → j < pieceCount d.length pl →
      (getFileWriters m files (piece d pl j) j pl : Res ε _) = .ok ws → pre <+: ws →
      ∃ fs1 fs2, (writePieces m cwd files d pl fs done : Res ε Unit × FS) = (.ok (), fs1) ∧
        (writeAllParts cwd fs1 pre : Res ε Unit × FS) = (.ok (), fs2) ∧
        ∀ i ∈ done, ∀ g, i * pl ≤ g → g < (i + 1) * pl → g < d.length → diskByte fs2 [] (placedFiles cwd files) g = d[g]?) ↔
    Agreeing cwd files d := by
  constructor
  · intro h i j f g hi hj he x hx hy
    have ti := fileStart_total hi
    have tj := fileStart_total hj
    have hg : fileStart files i + x < d.length := by omega
    obtain ⟨ps, hps⟩ := pieceParts (ε := ε) (m := m) hlen h64 hpl (lt_count hpl hg)
    obtain ⟨fs1, fs2, e1, e2, hb⟩ := h (List.range (pieceCount d.length pl)) _ _ [] (fun i hi => List.mem_range.mp hi) (lt_count hpl hg) hps.writers (List.nil_prefix ..)
    have at_ : ∀ k f, files[k]? = some f → x < f.length → (readFile fs2 (place cwd f.path)).bind (fun c => c[x]?) = d[fileStart files k + x]? := by
      intro k f hk hx
      have := fileStart_total hk
      have hg : fileStart files k + x < d.length := by omega
      have := hb _ (List.mem_range.mpr (lt_count hpl hg)) _ (pieceOf hpl).1 (pieceOf hpl).2 hg
      rw [diskByte_file (placed_get hk) (by rw [placed_start]; omega) (by rw [placed_start]; show _ < _ + f.length; omega), placed_start, List.nil_append,
        show fileStart files k + x - fileStart files k = x by omega] at this
      exact this
    rw [← at_ i f hi hx, ← at_ j g hj hy, he]
  · intro hA done j ws pre ho hj hws hpre
    obtain ⟨fs1, e1, r1, -, o1, -⟩ := anywhere_pieces (ε := ε) (m := m) hlen h64 hpl done hr ho
    obtain ⟨ps, hps⟩ := pieceParts (ε := ε) (m := m) hlen h64 hpl hj
    have hw := hps.writers
    rw [hws] at hw
    cases hw
    have hpre' : pre = (ps.take pre.length).map (toWriter files) := by
      rw [List.map_take]
      exact List.prefix_iff_eq_take.mp hpre
    obtain ⟨fs2, e2, -, -, k2, -⟩ := write_place (ε := ε) (ps.take pre.length) r1 (fun p hp => due_parts hlen hps p (List.mem_of_mem_take hp))
    rw [← hpre'] at e2
    refine ⟨fs1, fs2, e1, e2, ?_⟩
    intro i hi g h1 h2 h3
    obtain ⟨qs, hqs, hqd⟩ := o1 hA i hi
    exact laid_bytes hqs (fun p hp => k2 hA p (due_parts hlen hqs p hp) (hqd p hp)) h1 h2 h3

/-- C52, whatever the paths are: if files in the same place agree, writing a piece again changes nothing at all. -/
theorem C52_again_partial {ε : Type} (m : Build) (cwd : Loc) (fs : FS) (files : List File) (d : Bytes) (pl : Nat) (done : List Nat) (i : Nat)
    (hlen : total files = d.length) (h64 : d.length < 2 ^ 64) (hpl : 0 < pl) (hr : Receptive cwd fs files pl) (hA : Agreeing cwd files d)
    (ho : ∀ i ∈ done, i < pieceCount d.length pl) (hi : i ∈ done) :
    ∃ fs1, (writePieces m cwd files d pl fs done : Res ε Unit × FS) = (.ok (), fs1) ∧
      (writePiece m cwd fs1 (piece d pl i) i files pl : Res ε Unit × FS) = (.ok (), fs1) := by
  obtain ⟨fs1, e1, r1, -, o1, -⟩ := anywhere_pieces (ε := ε) (m := m) hlen h64 hpl done hr ho
  obtain ⟨ps, hps, hod⟩ := o1 hA i hi
  obtain ⟨fs2, e2, -, -, -, -, s2, -⟩ := write_place (ε := ε) ps r1 (due_parts hlen hps)
  refine ⟨fs1, e1, ?_⟩
  rw [writePiece, hps.writers]
  simp only []
  rw [e2, s2 hod]

/-- C53, exactly, whatever the paths are: if writing succeeds (`C55_whole`), a listed file exists in the end if and only if it did before or a file in its place is written to, i.e. is not empty or begins inside a
piece. -/
theorem C53_exactly {ε : Type} (m : Build) (cwd : Loc) (fs : FS) (files : List File) (d : Bytes) (pl : Nat) (order : List Nat)
    (hlen : total files = d.length) (h64 : d.length < 2 ^ 64) (hpl : 0 < pl)
    (ho : ∀ i ∈ order, i < pieceCount d.length pl) (hall : ∀ i, i < pieceCount d.length pl → i ∈ order) (hr : Receptive cwd fs files pl) :
    ∃ fs', (writePieces m cwd files d pl fs order : Res ε Unit × FS) = (.ok (), fs') ∧
      ∀ f ∈ files, ((∃ c, fs' (place cwd f.path) = some (.file c)) ↔
        (∃ c, fs (place cwd f.path) = some (.file c)) ∨ ∃ k g, Touched files pl k g ∧ place cwd g.path = place cwd f.path) := by
  obtain ⟨fs', e, -, -, -, u, -⟩ := anywhere_pieces (ε := ε) (m := m) hlen h64 hpl order hr ho
  obtain ⟨hw, hg⟩ := anywhere_receptive (ε := ε) (m := m) hlen h64 hpl hall e
  refine ⟨fs', e, fun f _ => ⟨?_, ?_⟩⟩
  · rintro ⟨c, hc⟩
    refine Classical.byContradiction fun hno => ?_
    rw [not_or] at hno
    have : fs' (place cwd f.path) = fs (place cwd f.path) := by
      apply u
      intro k g ht
      refine ⟨fun hway => ?_, fun he => hno.2 ⟨k, g, ht, he.symm⟩⟩
      rw [(hw k g ht).dirs _ hway] at hc
      cases hc
    exact hno.1 ⟨c, by rw [← this, hc]⟩
  · rintro (⟨c, hc⟩ | ⟨k, g, ht, he⟩)
    · obtain ⟨c', h, -⟩ := hg.2 _ _ hc
      exact ⟨c', h⟩
    · obtain ⟨c, h⟩ := (hw k g ht).file
      exact ⟨c, by rw [← he]; exact h⟩

/-! ### The hypotheses can be met -/

/-- Ordinary paths lead where one expects. -/
theorem place_ordinary {cwd : Loc} {path : List Bytes} (h : Plain path) : place cwd path = cwd ++ path := by
  rw [place, ← joinPath_text, parse_plain path h, PathBuf.base]
  have key : ∀ (l : Loc) (q : List Bytes), (∀ x ∈ q, x ≠ b!"..") → lex l q = l ++ q := by
    intro l q
    induction q generalizing l with
    | nil => intro _; simp [lex]
    | cons c q ih =>
      intro hq
      rw [show c :: q = [] ++ [c] ++ q by simp, lex_append, lex_snoc (hq c (by simp)), ih _ (fun x hx => hq x (List.mem_cons_of_mem _ hx))]
      simp [lex]
  exact key cwd path (fun x hx => (h.2 x hx).2.2.1)

/-- A path that goes up, an absolute one and two more for the place of the first. -/
def oddFiles : List File := [⟨[b!"x/..", b!"a"], 2⟩, ⟨[b!"", b!"z"], 1⟩, ⟨[b!"./a"], 2⟩, ⟨[b!"", b!"h", b!"a"], 0⟩]

/-- Non-vacuity: such files can be written, on an empty disk. -/
theorem oddFiles_receptive : Receptive [b!"h"] (fun _ => none) oddFiles 2 :=
  (C55_whole (ε := Unit) .debug [b!"h"] _ oddFiles [1, 2, 3, 1, 2] 2 [2, 0, 1, 1] rfl (by decide) (by decide) (by decide) (by
    intro i hi
    have : i < 3 := hi
    simp; omega)).1.mp (by rfl)

/-- They are right in the end if the two in one place have the same content, and otherwise not: the file may even be a mixture of both. -/
example : readFile (writePieces .debug [b!"h"] oddFiles [1, 2, 3, 1, 2] 2 (fun _ => none) [2, 0, 1, 1] : Res Unit Unit × FS).2 [b!"h", b!"a"] = some [1, 2] ∧
    readFile (writePieces .debug [b!"h"] oddFiles [1, 2, 3, 4, 5] 2 (fun _ => none) [2, 0, 1, 1] : Res Unit Unit × FS).2 [b!"h", b!"a"] = some [4, 2] := by decide +kernel

example : ∃ fs', (writePieces .debug [b!"h"] oddFiles [1, 2, 3, 4, 5] 2 (fun _ => none) [2, 0, 1, 1] : Res Unit Unit × FS) = (.ok (), fs') ∧
    ¬ FilesRight fs' [] (placedFiles [b!"h"] oddFiles) [1, 2, 3, 4, 5] := by
  obtain ⟨fs', e, h⟩ := C51_exactly (ε := Unit) .debug [b!"h"] (fun _ => none) oddFiles [1, 2, 3, 4, 5] 2 [2, 0, 1, 1] rfl (by decide) (by decide) (by decide) (by
    intro i hi
    have : i < 3 := hi
    simp; omega) oddFiles_receptive
  refine ⟨fs', e, fun hr => ?_⟩
  have := (h.mp hr).1 0 2 _ _ rfl rfl (by decide +kernel) 0 (by decide) (by decide)
  exact absurd this (by decide)

/-- Writing a file in the place of a directory that has to be there for another panics, in whatever order. -/
example (order : List Nat) (ho : ∀ i ∈ order, i < 2) (hall : ∀ i, i < 2 → i ∈ order) :
    (writePieces .debug [b!"h"] [⟨[b!"a"], 1⟩, ⟨[b!"a/b"], 1⟩] [1, 2] 1 (fun _ => none) order : Res Unit Unit × FS).1 = .panic :=
  (C55_whole .debug [b!"h"] (fun _ => none) [⟨[b!"a"], 1⟩, ⟨[b!"a/b"], 1⟩] [1, 2] 1 order rfl (by decide) (by decide) ho hall).2.mpr fun h =>
    h.ways 0 1 ⟨[b!"a"], 1⟩ ⟨[b!"a/b"], 1⟩ ⟨rfl, .inl (by decide)⟩ ⟨rfl, .inl (by decide)⟩ ⟨[], b!"a", b!"b", [], by decide +kernel, by decide, by decide +kernel⟩

end RustBit
