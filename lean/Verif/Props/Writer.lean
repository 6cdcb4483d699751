import Verif.Proofs.Writer
import Verif.Proofs.Escape

/-
C50–C55: splitting pieces over files and writing them.
-/

namespace RustBit
open Spec

/-! ### C50 -/

/-- C50: the parts concatenate to the piece (clipped at the end of the torrent), lie one after the other in the
torrent's byte order, each inside its file, and nothing overflows or underflows (the result is `ok` in
debug builds too). The only assumption is that positions fit in 64 bits;
this is what is missing (refuted below). -/
theorem C50_split_partial {ε : Type} (m : Build) (files : List File) (piece : Bytes) (idx pl : Nat)
    (ht : total files < 2 ^ 64) (hp : idx * pl + piece.length < 2 ^ 64) :
    ∃ parts : List Part,
      (getFileWriters m files piece idx pl : Res ε _) = .ok (parts.map (fun p =>
        ⟨pathOf files p.file, p.offset, p.offset + p.data.length, p.data⟩)) ∧
      Placed files (idx * pl) parts ∧ (parts.map Part.file).Pairwise (· < ·) ∧
      parts.flatMap Part.data = piece.take (total files - idx * pl) := by
  obtain ⟨parts, h1, h2, h3, h4, -⟩ := getFileWriters_spec (ε := ε) m files piece idx pl ht hp
  exact ⟨parts, h1, h2, h3, h4⟩

/-- Non-vacuity: a piece over three files, one of them empty. -/
example : (getFileWriters .debug [⟨[b!"a"], 3⟩, ⟨[b!"b"], 0⟩, ⟨[b!"c"], 9⟩] [1, 2, 3, 4] 1 2 : Res Unit _) =
    .ok [⟨[b!"a"], 2, 3, [1]⟩, ⟨[b!"b"], 0, 0, []⟩, ⟨[b!"c"], 0, 3, [2, 3, 4]⟩] := rfl

/-- Without the assumption: a file list whose length overflows panics in debug builds. -/
theorem C50_refuted_overflow : (getFileWriters .debug [⟨[b!"a"], 2 ^ 63⟩, ⟨[b!"b"], 2 ^ 63⟩] [1] (2 ^ 32 - 1) (2 ^ 32 - 1) : Res Unit _) = .panic ∧
    (getFileWriters .debug [⟨[b!"a"], 5⟩] [1] (2 ^ 32) (2 ^ 32) : Res Unit _) = .panic := by
  constructor <;> decide +kernel

/-! ### C51, C52, C53 -/

/-- Successive calls of `write` for the pieces of `d` with the given indices. -/
def writePieces {ε : Type} (m : Build) (cwd : Loc) (files : List File) (d : Bytes) (pl : Nat) : FS → List Nat → Res ε Unit × FS
  | fs, [] => (.ok (), fs)
  | fs, i :: is => match (writePiece m cwd fs (piece d pl i) i files pl : Res ε Unit × FS) with
    | (.ok (), fs1) => writePieces m cwd files d pl fs1 is
    | r => r

/-- What the layout, the content and the file system have to be like. -/
structure Layout (cwd : Loc) (fs : FS) (files : List File) (d : Bytes) (pl : Nat) : Prop where
  plain : ∀ f ∈ files, Plain f.path
  separate : Separate files
  room : Room fs cwd files
  length : total files = d.length
  small : d.length < 2 ^ 64
  pieceLength : 0 < pl

/-- As `Layout`, but files of any length may be there already. -/
structure Placeable (cwd : Loc) (fs : FS) (files : List File) (d : Bytes) (pl : Nat) : Prop where
  plain : ∀ f ∈ files, Plain f.path
  separate : Separate files
  clear : Clear fs cwd files
  length : total files = d.length
  small : d.length < 2 ^ 64
  pieceLength : 0 < pl

theorem Layout.placeable {cwd : Loc} {fs : FS} {files : List File} {d : Bytes} {pl : Nat} (h : Layout cwd fs files d pl) : Placeable cwd fs files d pl :=
  ⟨h.plain, h.separate, room_clear h.room, h.length, h.small, h.pieceLength⟩

theorem Placeable.layout {cwd : Loc} {fs : FS} {files : List File} {d : Bytes} {pl : Nat} (h : Placeable cwd fs files d pl)
    (hb : ∀ f ∈ files, beyond fs cwd f = []) : Layout cwd fs files d pl :=
  ⟨h.plain, h.separate, room_iff.mpr ⟨h.clear, hb⟩, h.length, h.small, h.pieceLength⟩

theorem writePieces_spec {ε : Type} {m : Build} {cwd : Loc} {files : List File} {d : Bytes} {pl : Nat} (order : List Nat) :
    ∀ {fs : FS}, Placeable cwd fs files d pl → (∀ i ∈ order, i < pieceCount d.length pl) →
    ∃ fs', (writePieces m cwd files d pl fs order : Res ε Unit × FS) = (.ok (), fs') ∧ Placeable cwd fs' files d pl ∧
      (∀ p, Right files d p → OnDisk fs cwd files p → OnDisk fs' cwd files p) ∧
      (∀ i ∈ order, ∃ ps, PieceParts ε m files d pl i ps ∧ ∀ p ∈ ps, OnDisk fs' cwd files p) ∧
      ∀ f ∈ files, beyond fs' cwd f = beyond fs cwd f := by
  induction order with
  | nil => intro fs hl _; exact ⟨fs, rfl, hl, fun _ _ h => h, by simp, fun _ _ => rfl⟩
  | cons i is ih =>
    intro fs hl hi
    obtain ⟨ps, hps⟩ := pieceParts (ε := ε) (m := m) hl.length hl.small hl.pieceLength (hi i (by simp))
    obtain ⟨fs1, e1, r1, o1, k1, -, -, -, b1⟩ := write_clear (ε := ε) ps hl.plain hl.separate hl.clear hps.right
    obtain ⟨fs2, e2, r2, k2, o2, b2⟩ := ih (fs := fs1) ⟨hl.plain, hl.separate, r1, hl.length, hl.small, hl.pieceLength⟩
      (fun j hj => hi j (List.mem_cons_of_mem _ hj))
    refine ⟨fs2, ?_, r2, fun p hp ho => k2 p hp (k1 p hp ho), ?_, fun f hf => (b2 f hf).trans (b1 f hf)⟩
    · rw [writePieces, writePiece, hps.writers]
      simp only []
      rw [e1]
      exact e2
    · intro j hj
      rcases List.mem_cons.mp hj with rfl | hj
      · exact ⟨ps, hps, fun p hp => k2 p (hps.right p hp) (o1 p hp)⟩
      · exact o2 j hj

theorem pieceParts_byte {ε : Type} {m : Build} {cwd : Loc} {files : List File} {d : Bytes} {pl i : Nat} {ps : List Part} {fs : FS}
    (h : PieceParts ε m files d pl i ps) (ho : ∀ p ∈ ps, OnDisk fs cwd files p) {g : Nat}
    (h1 : i * pl ≤ g) (h2 : g < (i + 1) * pl) (h3 : g < d.length) : diskByte fs cwd files g = d[g]? := by
  obtain ⟨p, hp, hp1, hp2⟩ := h.covers g h1 h2 h3
  exact onDisk_byte (h.right p hp) (ho p hp) hp1 hp2

theorem pieceOf {pl g : Nat} (hpl : 0 < pl) : g / pl * pl ≤ g ∧ g < (g / pl + 1) * pl :=
  ⟨Nat.div_mul_le_self _ _, (Nat.div_lt_iff_lt_mul hpl).mp (Nat.lt_succ_self _)⟩

/-- When all parts of all pieces are on disk, the files are right, up to what is beyond their listed length. -/
theorem files_beyond {ε : Type} {m : Build} {cwd : Loc} {fs' : FS} {files : List File} {d : Bytes} {pl : Nat} (h : Placeable cwd fs' files d pl)
    (hall : ∀ i, i < pieceCount d.length pl → ∃ ps, PieceParts ε m files d pl i ps ∧ ∀ p ∈ ps, OnDisk fs' cwd files p) :
    ∀ k f, files[k]? = some f → 0 < f.length → readFile fs' (cwd ++ f.path) = some (fileContent files d k f ++ beyond fs' cwd f) := by
  intro k f hk hpos
  have htot := fileStart_total hk
  have hlen := h.length
  have byte : ∀ i, i < f.length → (readFile fs' (cwd ++ f.path)).bind (fun c => c[i]?) = d[fileStart files k + i]? := by
    intro i hi
    have hg : fileStart files k + i < d.length := by omega
    obtain ⟨ps, hps, hod⟩ := hall ((fileStart files k + i) / pl) (lt_count h.pieceLength hg)
    have := pieceParts_byte hps hod (pieceOf h.pieceLength).1 (pieceOf h.pieceLength).2 hg
    rw [diskByte_file hk (by omega) (by omega)] at this
    rw [← this]
    congr 2
    funext c
    congr 1
    omega
  have h0 := byte 0 hpos
  rw [List.getElem?_eq_getElem (l := d) (by omega)] at h0
  cases hc : readFile fs' (cwd ++ f.path) with
  | none => rw [hc] at h0; simp at h0
  | some c =>
    rw [beyond, hc, Option.getD_some]
    congr 1
    refine (List.take_append_drop f.length c).symm.trans ?_
    congr 1
    apply List.ext_getElem?
    intro i
    rw [fileContent, List.getElem?_take, List.getElem?_take]
    by_cases hi : i < f.length
    · have := byte i hi
      rw [hc] at this
      rw [if_pos hi, if_pos hi, List.getElem?_drop]
      exact this
    · rw [if_neg hi, if_neg hi]

/-- When all parts of all pieces are on disk, the files are right. -/
theorem files_of_parts {ε : Type} {m : Build} {cwd : Loc} {fs' : FS} {files : List File} {d : Bytes} {pl : Nat} (h : Layout cwd fs' files d pl)
    (hall : ∀ i, i < pieceCount d.length pl → ∃ ps, PieceParts ε m files d pl i ps ∧ ∀ p ∈ ps, OnDisk fs' cwd files p) :
    ∀ k f, files[k]? = some f → 0 < f.length → readFile fs' (cwd ++ f.path) = some (fileContent files d k f) := by
  intro k f hk hpos
  rw [files_beyond h.placeable hall k f hk hpos, (room_iff.mp h.room).2 f (List.mem_of_getElem? hk), List.append_nil]

/-- C51: after writing every piece, in any order and any number of times, every non-empty file holds its part of
the content. Missing: listed paths that clash or are not made of ordinary names, and existing files that are longer
(refuted below). -/
theorem C51_any_order_partial {ε : Type} (m : Build) (cwd : Loc) (fs : FS) (files : List File) (d : Bytes) (pl : Nat)
    (order : List Nat) (h : Layout cwd fs files d pl) (ho : ∀ i ∈ order, i < pieceCount d.length pl)
    (hall : ∀ i, i < pieceCount d.length pl → i ∈ order) :
    ∃ fs', (writePieces m cwd files d pl fs order : Res ε Unit × FS) = (.ok (), fs') ∧
      ∀ k f, files[k]? = some f → 0 < f.length →
        readFile fs' (cwd ++ f.path) = some (fileContent files d k f) := by
  obtain ⟨fs', e, hl, -, hb, hy⟩ := writePieces_spec (ε := ε) (m := m) order h.placeable ho
  exact ⟨fs', e, files_of_parts (hl.layout fun f hf => (hy f hf).trans ((room_iff.mp h.room).2 f hf)) (fun i hi => hb i (hall i hi))⟩

theorem append_self_nil {a b : Bytes} (h : a ++ b = a) : b = [] := by
  have := congrArg List.length h
  rw [List.length_append] at this
  exact List.length_eq_zero_iff.mp (by omega)

/-- C51, whatever files are there before: every non-empty file ends as its part of the content followed by what was there beyond its
length; so the files are right exactly when no longer file was there. -/
theorem C51_exact {ε : Type} (m : Build) (cwd : Loc) (fs : FS) (files : List File) (d : Bytes) (pl : Nat)
    (order : List Nat) (h : Placeable cwd fs files d pl) (ho : ∀ i ∈ order, i < pieceCount d.length pl)
    (hall : ∀ i, i < pieceCount d.length pl → i ∈ order) :
    ∃ fs', (writePieces m cwd files d pl fs order : Res ε Unit × FS) = (.ok (), fs') ∧
      (∀ k f, files[k]? = some f → 0 < f.length →
        readFile fs' (cwd ++ f.path) = some (fileContent files d k f ++ ((readFile fs (cwd ++ f.path)).getD []).drop f.length)) ∧
      ((∀ k f, files[k]? = some f → 0 < f.length → readFile fs' (cwd ++ f.path) = some (fileContent files d k f)) ↔
        ∀ f ∈ files, 0 < f.length → ∀ c, readFile fs (cwd ++ f.path) = some c → c.length ≤ f.length) := by
  obtain ⟨fs', e, hl, -, hb, hy⟩ := writePieces_spec (ε := ε) (m := m) order h ho
  have hc : ∀ k f, files[k]? = some f → 0 < f.length → readFile fs' (cwd ++ f.path) = some (fileContent files d k f ++ beyond fs cwd f) := by
    intro k f hk hpos
    rw [files_beyond hl (fun i hi => hb i (hall i hi)) k f hk hpos, hy f (List.mem_of_getElem? hk)]
  refine ⟨fs', e, hc, fun hr f hf hpos c hfc => ?_, fun hs k f hk hpos => ?_⟩
  · obtain ⟨k, hk⟩ := List.getElem?_of_mem hf
    have := hc k f hk hpos
    rw [hr k f hk hpos] at this
    have := append_self_nil (Option.some.inj this).symm
    rw [beyond, hfc, Option.getD_some] at this
    exact List.drop_eq_nil_iff.mp this
  · rw [hc k f hk hpos, beyond]
    cases hfc : readFile fs (cwd ++ f.path) with
    | none => simp
    | some c => rw [Option.getD_some, List.drop_of_length_le (hs f (List.mem_of_getElem? hk) hpos c hfc), List.append_nil]

/-- Non-vacuity: two files in different directories, one of them partly there already, five bytes in pieces of two. -/
def sampleFiles : List File := [⟨[b!"x", b!"a"], 3⟩, ⟨[b!"x", b!"b"], 2⟩]
def sampleFs : FS := fun l => if l = [b!"home"] then some .dir else if l = [b!"home", b!"x"] then some .dir
  else if l = [b!"home", b!"x", b!"a"] then some (.file [9]) else none

theorem sampleLayout : Layout [b!"home"] sampleFs sampleFiles [1, 2, 3, 4, 5] 2 := by
  refine ⟨?_, ?_, ?_, rfl, by decide, by decide⟩
  · intro f hf
    simp only [sampleFiles, List.mem_cons, List.not_mem_nil, or_false] at hf
    rcases hf with rfl | rfl <;>
    · refine ⟨by simp, ?_⟩
      intro c hc
      simp only [List.mem_cons, List.not_mem_nil, or_false] at hc
      rcases hc with rfl | rfl <;> simp
  · intro i j f g hi hj hpre
    match i, j with
    | 0, 0 => rfl
    | 1, 1 => rfl
    | 0, 1 => cases hi; cases hj; exact absurd hpre (by decide)
    | 1, 0 => cases hi; cases hj; exact absurd hpre (by decide)
    | i + 2, _ => simp [sampleFiles] at hi
    | _, j + 2 => simp [sampleFiles] at hj
  · intro f hf
    simp only [sampleFiles, List.mem_cons, List.not_mem_nil, or_false] at hf
    rcases hf with rfl | rfl
    · refine ⟨?_, by decide, ?_⟩
      · rintro q c hq hne hne2
        match q, hq, hne, hne2 with
        | [], _, _, h => exact absurd rfl h
        | [x], hq, _, _ =>
          have hx : x = b!"x" := (List.cons.inj hq.choose_spec).1
          subst hx
          simp [sampleFs]
        | [x, y], hq, hne, _ =>
          exact absurd (hq.eq_of_length (by simp)) hne
        | x :: y :: z :: r, hq, _, _ => have := hq.length_le; simp at this
      · intro c hc
        simp only [sampleFs] at hc
        rw [if_neg (by decide), if_neg (by decide), if_pos (by decide)] at hc
        simp only [Option.some.injEq, Node.file.injEq] at hc
        rw [← hc]; decide
    · refine ⟨?_, by decide, ?_⟩
      · rintro q c hq hne hne2
        match q, hq, hne, hne2 with
        | [], _, _, h => exact absurd rfl h
        | [x], hq, _, _ =>
          have hx : x = b!"x" := (List.cons.inj hq.choose_spec).1
          subst hx
          simp [sampleFs]
        | [x, y], hq, hne, _ =>
          exact absurd (hq.eq_of_length (by simp)) hne
        | x :: y :: z :: r, hq, _, _ => have := hq.length_le; simp at this
      · intro c hc
        simp only [sampleFs] at hc
        rw [if_neg (by decide), if_neg (by decide), if_neg (by decide)] at hc
        cases hc

example : pieceCount 5 2 = 3 ∧
    readFile (writePieces (ε := Unit) .debug [b!"home"] sampleFiles [1, 2, 3, 4, 5] 2 sampleFs [2, 0, 1, 0]).2
      [b!"home", b!"x", b!"b"] = some [4, 5] := by decide +kernel

/-- Non-vacuity of `C51_exact`: a file of four bytes in the place of one of three, and none in the place of the other. -/
example : Placeable [b!"home"] (sampleFs.set [b!"home", b!"x", b!"a"] (.file [9, 9, 9, 7])) sampleFiles [1, 2, 3, 4, 5] 2 := by
  refine ⟨sampleLayout.plain, sampleLayout.separate, ?_, rfl, by decide, by decide⟩
  intro f hf
  have hr := sampleLayout.room f hf
  simp only [sampleFiles, List.mem_cons, List.not_mem_nil, or_false] at hf
  refine ⟨fun q c hq hne hnil => ?_, ?_⟩
  · have : [b!"home"] ++ q ≠ [b!"home", b!"x", b!"a"] := by
      intro e
      have e : q = [b!"x", b!"a"] := (List.cons.inj e).2
      subst e
      rcases hf with rfl | rfl
      · exact hne rfl
      · exact absurd hq (by decide)
    rw [FS.set, if_neg this]
    exact hr.1 q c hq hne hnil
  · rcases hf with rfl | rfl <;> decide

/-- The full C51 is false: a longer file that is already there keeps its tail. -/
theorem C51_refuted_longer_file :
    readFile (writePieces (ε := Unit) .debug [] [⟨[b!"a"], 1⟩] [1] 1
      (fun l => if l = [b!"a"] then some (.file [7, 8]) else none) [0]).2 [b!"a"] = some [1, 8] := by decide +kernel

/-- The full C51 is false: a path listed twice leaves one of the two files wrong. -/
theorem C51_refuted_same_path :
    readFile (writePieces (ε := Unit) .debug [] [⟨[b!"a"], 1⟩, ⟨[b!"a"], 1⟩] [1, 2] 2 (fun _ => none) [0]).2 [b!"a"] = some [2] := by
  decide +kernel

/-- C52: whatever pieces have been written, and however far the next one has got (any number of its file parts), the
bytes of every piece written are on disk. Missing: listed paths that clash or are not made of ordinary names. -/
theorem C52_intact_partial {ε : Type} (m : Build) (cwd : Loc) (fs : FS) (files : List File) (d : Bytes) (pl : Nat)
    (done : List Nat) (j : Nat) (ws pre : List FileWriter) (h : Placeable cwd fs files d pl)
    (ho : ∀ i ∈ done, i < pieceCount d.length pl) (hj : j < pieceCount d.length pl)
    (hws : (getFileWriters m files (piece d pl j) j pl : Res ε _) = .ok ws) (hpre : pre <+: ws) :
    ∃ fs1 fs2, (writePieces m cwd files d pl fs done : Res ε Unit × FS) = (.ok (), fs1) ∧
      (writeAllParts cwd fs1 pre : Res ε Unit × FS) = (.ok (), fs2) ∧
      ∀ i ∈ done, ∀ g, i * pl ≤ g → g < (i + 1) * pl → g < d.length → diskByte fs2 cwd files g = d[g]? := by
  obtain ⟨fs1, e1, hl, -, hb, -⟩ := writePieces_spec (ε := ε) (m := m) done h ho
  obtain ⟨ps, hps⟩ := pieceParts (ε := ε) (m := m) h.length h.small h.pieceLength hj
  have hw := hps.writers
  rw [hws] at hw
  cases hw
  have hpre' : pre = (ps.take pre.length).map (toWriter files) := by
    rw [List.map_take]
    exact List.prefix_iff_eq_take.mp hpre
  obtain ⟨fs2, e2, r2, -, k2, -⟩ := write_clear (ε := ε) (ps.take pre.length) h.plain h.separate hl.clear
    (fun p hp => hps.right p (List.mem_of_mem_take hp))
  rw [← hpre'] at e2
  refine ⟨fs1, fs2, e1, e2, ?_⟩
  intro i hi g h1 h2 h3
  obtain ⟨qs, hqs, hqd⟩ := hb i hi
  exact pieceParts_byte hqs (fun p hp => k2 p (hqs.right p hp) (hqd p hp)) h1 h2 h3

theorem right_take {files : List File} {d : Bytes} {p : Part} (h : Right files d p) (n : Nat) :
    Right files d ⟨p.file, p.offset, p.data.take n⟩ := by
  obtain ⟨f, h1, h2, h3⟩ := h
  have hn : (p.data.take n).length = min n p.data.length := List.length_take
  refine ⟨f, h1, by simp only []; omega, ?_⟩
  intro i hi
  simp only [] at hi ⊢
  rw [List.getElem?_take, if_pos (by omega)]
  exact h3 i (by omega)

theorem writeAllParts_last {ε : Type} {cwd : Loc} {w w' : FileWriter}
    (h : ∀ fs, (w.writeToFilesystem cwd fs : Res ε Unit × FS) = w'.writeToFilesystem cwd fs) (pre : List FileWriter) :
    ∀ fs, (writeAllParts cwd fs (pre ++ [w]) : Res ε Unit × FS) = writeAllParts cwd fs (pre ++ [w']) := by
  induction pre with
  | nil => intro fs; simp only [List.nil_append, writeAllParts, h]
  | cons a pre ih => intro fs; simp only [List.cons_append, writeAllParts, ih]

/-- C52 for a crash in the middle of a `write_at`: after the finished pieces, some parts `pre` of the next piece and the first
`n` bytes of the part after those, the finished pieces are intact. -/
theorem C52_torn_partial {ε : Type} (m : Build) (cwd : Loc) (fs : FS) (files : List File) (d : Bytes) (pl : Nat)
    (done : List Nat) (j : Nat) (h : Placeable cwd fs files d pl) (ho : ∀ i ∈ done, i < pieceCount d.length pl)
    (hj : j < pieceCount d.length pl) (ws pre : List FileWriter) (w : FileWriter) (n : Nat)
    (hws : (getFileWriters m files (piece d pl j) j pl : Res ε _) = .ok ws) (hpre : pre ++ [w] <+: ws) :
    ∃ fs1 fs2, (writePieces m cwd files d pl fs done : Res ε Unit × FS) = (.ok (), fs1) ∧
      (writeAllParts cwd fs1 (pre ++ [{ w with piece := w.piece.take n }]) : Res ε Unit × FS) = (.ok (), fs2) ∧
      ∀ i ∈ done, ∀ g, i * pl ≤ g → g < (i + 1) * pl → g < d.length → diskByte fs2 cwd files g = d[g]? := by
  obtain ⟨fs1, e1, hl, -, hb, -⟩ := writePieces_spec (ε := ε) (m := m) done h ho
  obtain ⟨ps, hps⟩ := pieceParts (ε := ε) (m := m) h.length h.small h.pieceLength hj
  have hw := hps.writers
  rw [hws] at hw
  cases hw
  have hpre' : pre = (ps.take pre.length).map (toWriter files) := by
    rw [List.map_take]
    exact List.prefix_iff_eq_take.mp ((List.prefix_append _ _).trans hpre)
  have hwm : w ∈ ps.map (toWriter files) := hpre.subset (by simp)
  obtain ⟨p, hp, rfl⟩ := List.mem_map.mp hwm
  obtain ⟨fs2, e2, r2, -, k2, -⟩ := write_clear (ε := ε) (ps.take pre.length ++ [⟨p.file, p.offset, p.data.take n⟩])
    h.plain h.separate hl.clear (by
      intro q hq
      rcases List.mem_append.mp hq with hq | hq
      · exact hps.right q (List.mem_of_mem_take hq)
      · cases List.mem_singleton.mp hq
        exact right_take (hps.right p hp) n)
  rw [List.map_append, ← hpre'] at e2
  refine ⟨fs1, fs2, e1, ?_, ?_⟩
  · rw [← e2]
    rw [List.map_cons, List.map_nil]
    refine writeAllParts_last ?_ pre fs1
    intro _
    rfl
  · intro i hi g h1 h2 h3
    obtain ⟨qs, hqs, hqd⟩ := hb i hi
    exact pieceParts_byte hqs (fun p hp => k2 p (hqs.right p hp) (hqd p hp)) h1 h2 h3

/-- C52: writing a piece again changes nothing at all. -/
theorem C52_rewrite_partial {ε : Type} (m : Build) (cwd : Loc) (fs : FS) (files : List File) (d : Bytes) (pl : Nat)
    (done : List Nat) (i : Nat) (h : Placeable cwd fs files d pl) (ho : ∀ i ∈ done, i < pieceCount d.length pl) (hi : i ∈ done) :
    ∃ fs1, (writePieces m cwd files d pl fs done : Res ε Unit × FS) = (.ok (), fs1) ∧
      (writePiece m cwd fs1 (piece d pl i) i files pl : Res ε Unit × FS) = (.ok (), fs1) := by
  obtain ⟨fs1, e1, hl, -, hb, -⟩ := writePieces_spec (ε := ε) (m := m) done h ho
  obtain ⟨ps, hps, hod⟩ := hb i hi
  obtain ⟨fs2, e2, -, -, -, -, s2, -⟩ := write_clear (ε := ε) ps h.plain h.separate hl.clear hps.right
  refine ⟨fs1, e1, ?_⟩
  rw [writePiece, hps.writers]
  simp only []
  rw [e2, s2 hod]

/-- Non-vacuity: in the layout above, a crash after the first of the two parts of piece 1. -/
example : (getFileWriters .debug sampleFiles (piece [1, 2, 3, 4, 5] 2 1) 1 2 : Res Unit _) =
    .ok [⟨[b!"x", b!"a"], 2, 3, [3]⟩, ⟨[b!"x", b!"b"], 0, 1, [4]⟩] := rfl

/-- C52 is false when a path is listed twice: piece 1 destroys piece 0. -/
theorem C52_refuted_same_path :
    diskByte (writePieces (ε := Unit) .debug [] [⟨[b!"a"], 1⟩, ⟨[b!"a"], 1⟩] [1, 2] 1 (fun _ => none) [0]).2 []
      [⟨[b!"a"], 1⟩, ⟨[b!"a"], 1⟩] 0 = some 1 ∧
    diskByte (writePieces (ε := Unit) .debug [] [⟨[b!"a"], 1⟩, ⟨[b!"a"], 1⟩] [1, 2] 1 (fun _ => none) [0, 1]).2 []
      [⟨[b!"a"], 1⟩, ⟨[b!"a"], 1⟩] 0 = some 2 := by decide +kernel

/-- C53: after all pieces are written every file exists that is not empty or begins inside a piece; an empty one is
as it was before. Missing: empty files
at a piece boundary or at the end (refuted below). -/
theorem C53_exists_partial {ε : Type} (m : Build) (cwd : Loc) (fs : FS) (files : List File) (d : Bytes) (pl : Nat)
    (order : List Nat) (h : Placeable cwd fs files d pl) (ho : ∀ i ∈ order, i < pieceCount d.length pl)
    (hall : ∀ i, i < pieceCount d.length pl → i ∈ order) :
    ∃ fs', (writePieces m cwd files d pl fs order : Res ε Unit × FS) = (.ok (), fs') ∧
      ∀ k f, files[k]? = some f → 0 < f.length ∨ (fileStart files k % pl ≠ 0 ∧ fileStart files k < total files) →
        ∃ c, fs' (cwd ++ f.path) = some (.file c) ∧ (f.length = 0 → c = (readFile fs (cwd ++ f.path)).getD []) := by
  obtain ⟨fs', e, hl, -, hb, hy⟩ := writePieces_spec (ε := ε) (m := m) order h ho
  refine ⟨fs', e, ?_⟩
  intro k f hk hcase
  have htot := fileStart_total hk
  have hlen := h.length
  have hg : fileStart files k < d.length := by omega
  obtain ⟨ps, hps, hod⟩ := hb (fileStart files k / pl) (hall _ (lt_count h.pieceLength hg))
  have hle := (pieceOf (g := fileStart files k) h.pieceLength).1
  have hdm := Nat.div_add_mod (fileStart files k) pl
  rw [Nat.mul_comm] at hdm
  obtain ⟨p, hp, hpk⟩ := hps.touches k f hk (by omega) (pieceOf h.pieceLength).2 hg
  obtain ⟨f', c, hf', hc, -, -⟩ := hod p hp
  rw [hpk, hk] at hf'
  cases hf'
  refine ⟨c, hc, fun hz => ?_⟩
  have := hy f (List.mem_of_getElem? hk)
  rw [beyond, beyond, hz, readFile, hc] at this
  exact this

/-- Non-vacuity: the two files of the sample layout, and an empty file inside a piece. -/
example : readFile (writePieces (ε := Unit) .debug [] [⟨[b!"a"], 1⟩, ⟨[b!"e"], 0⟩, ⟨[b!"b"], 1⟩] [1, 2] 2 (fun _ => none) [0]).2
    [b!"e"] = some [] := by decide +kernel

/-- A file in none of the pieces is left alone. -/
theorem writePieces_frame {ε : Type} {m : Build} {cwd : Loc} {files : List File} {d : Bytes} {pl : Nat} {k : Nat} {f : File}
    (hk : files[k]? = some f) (order : List Nat) : ∀ {fs fs' : FS}, Placeable cwd fs files d pl →
    (∀ i ∈ order, i < pieceCount d.length pl) →
    (∀ i ∈ order, ¬ (i * pl < fileStart files k + f.length ∧ fileStart files k < (i + 1) * pl ∧ fileStart files k < d.length)) →
    (writePieces m cwd files d pl fs order : Res ε Unit × FS) = (.ok (), fs') → fs' (cwd ++ f.path) = fs (cwd ++ f.path) := by
  induction order with
  | nil => intro fs fs' _ _ _ e; cases e; rfl
  | cons i is ih =>
    intro fs fs' hl hi hno e
    obtain ⟨ps, hps⟩ := pieceParts (ε := ε) (m := m) hl.length hl.small hl.pieceLength (hi i (by simp))
    obtain ⟨fs1, e1, r1, -, -, -, -, t1, -⟩ := write_clear (ε := ε) ps hl.plain hl.separate hl.clear hps.right
    rw [writePieces, writePiece, hps.writers] at e
    simp only [] at e
    rw [e1] at e
    rw [ih (fs := fs1) ⟨hl.plain, hl.separate, r1, hl.length, hl.small, hl.pieceLength⟩ (fun j hj => hi j (List.mem_cons_of_mem _ hj))
      (fun j hj => hno j (List.mem_cons_of_mem _ hj)) e]
    refine t1 k f hk (fun p hp e => hno i (by simp) ?_)
    have := hps.only p hp f (by rw [← e]; exact hk)
    rw [← e] at this
    exact this

/-- C53, exactly which files exist in the end, if none did at first: those that are not empty and those that begin inside a piece. -/
theorem C53_exact {ε : Type} (m : Build) (cwd : Loc) (fs : FS) (files : List File) (d : Bytes) (pl : Nat)
    (order : List Nat) (h : Placeable cwd fs files d pl) (hfresh : ∀ f ∈ files, fs (cwd ++ f.path) = none)
    (ho : ∀ i ∈ order, i < pieceCount d.length pl) (hall : ∀ i, i < pieceCount d.length pl → i ∈ order) :
    ∃ fs', (writePieces m cwd files d pl fs order : Res ε Unit × FS) = (.ok (), fs') ∧
      ∀ k f, files[k]? = some f → (fs' (cwd ++ f.path) ≠ none ↔
        0 < f.length ∨ (fileStart files k % pl ≠ 0 ∧ fileStart files k < total files)) := by
  obtain ⟨fs', e, hex⟩ := C53_exists_partial (ε := ε) m cwd fs files d pl order h ho hall
  refine ⟨fs', e, fun k f hk => ⟨fun hne => ?_, fun hc => ?_⟩⟩
  · apply Classical.byContradiction
    intro hno
    refine hne ?_
    rw [writePieces_frame hk order h ho ?_ e]
    · exact hfresh f (List.mem_of_getElem? hk)
    · rintro i hi ⟨h1, h2, h3⟩
      have h0 : f.length = 0 := by omega
      have hm : fileStart files k % pl = 0 := by
        rw [h.length] at hno
        omega
      have := Nat.div_add_mod (fileStart files k) pl
      rw [hm, Nat.add_zero] at this
      rw [h0, Nat.add_zero, ← this, Nat.mul_comm i] at h1
      rw [← this, Nat.mul_comm _ pl] at h2
      have a1 := Nat.lt_of_mul_lt_mul_left h1
      have a2 := Nat.lt_of_mul_lt_mul_left h2
      omega
  · obtain ⟨c, hc, -⟩ := hex k f hk hc
    rw [hc]
    simp

/-- Non-vacuity: of an empty file inside a piece and one at the end the first is created and the second is not. -/
def emptyFiles : List File := [⟨[b!"a"], 1⟩, ⟨[b!"e"], 0⟩, ⟨[b!"b"], 1⟩, ⟨[b!"z"], 0⟩]

theorem emptyLayout : Layout [] (fun _ => none) emptyFiles [1, 2] 2 := by
  refine ⟨?_, ?_, ?_, rfl, by decide, by decide⟩
  · intro f hf
    simp only [emptyFiles, List.mem_cons, List.not_mem_nil, or_false] at hf
    rcases hf with rfl | rfl | rfl | rfl <;>
    · refine ⟨by simp, ?_⟩
      intro c hc
      rw [List.mem_singleton.mp hc]
      simp
  · intro i j f g hi hj hpre
    have hi' := (List.getElem?_eq_some_iff.mp hi).1
    have hj' := (List.getElem?_eq_some_iff.mp hj).1
    have : ∀ i : Fin 4, ∀ j : Fin 4, (emptyFiles[i.val]'i.isLt).path <+: (emptyFiles[j.val]'j.isLt).path → i = j := by decide
    rw [← (List.getElem?_eq_some_iff.mp hi).2, ← (List.getElem?_eq_some_iff.mp hj).2] at hpre
    exact congrArg Fin.val (this ⟨i, hi'⟩ ⟨j, hj'⟩ hpre)
  · intro f hf
    exact ⟨by simp, by simp, by simp⟩

example : (∀ f ∈ emptyFiles, (fun _ => none : FS) ([] ++ f.path) = none) ∧ pieceCount 2 2 = 1 ∧
    fileStart emptyFiles 1 % 2 ≠ 0 ∧ fileStart emptyFiles 3 % 2 = 0 :=
  ⟨fun _ _ => rfl, by decide, by decide, by decide⟩

/-- The full C53 is false: empty files at a piece boundary or at the end are never created. -/
theorem C53_refuted :
    (writePieces (ε := Unit) .debug [] [⟨[b!"a"], 1⟩, ⟨[b!"e"], 0⟩, ⟨[b!"b"], 1⟩, ⟨[b!"z"], 0⟩] [1, 2] 1 (fun _ => none) [0, 1]).1 = .ok () ∧
    (writePieces (ε := Unit) .debug [] [⟨[b!"a"], 1⟩, ⟨[b!"e"], 0⟩, ⟨[b!"b"], 1⟩, ⟨[b!"z"], 0⟩] [1, 2] 1 (fun _ => none) [0, 1]).2 [b!"e"] = none ∧
    (writePieces (ε := Unit) .debug [] [⟨[b!"a"], 1⟩, ⟨[b!"e"], 0⟩, ⟨[b!"b"], 1⟩, ⟨[b!"z"], 0⟩] [1, 2] 1 (fun _ => none) [0, 1]).2 [b!"z"] = none := by
  decide +kernel

/-! ### C54 -/

/-- A relative path whose components never lead out does not escape. -/
theorem not_escapes_of_stays {s : Bytes} (ha : (PathBuf.parse s).absolute = false) (h : Stays 0 (PathBuf.parse s).comps) : ¬ Escapes s := by
  rintro ⟨q, c, r, h1, -, h3, -⟩
  rw [ha] at h3
  refine h3.resolve_left (by simp) ?_
  rw [h1] at h
  have : ∀ {q r : List Bytes} {n : Nat}, Stays n (q ++ r) → Stays n q := by
    intro q
    induction q with
    | nil => intro r n _; trivial
    | cons a q ih =>
      intro r n h
      rw [List.cons_append, Stays] at h
      rw [Stays]
      split at h
      · rename_i e; rw [if_pos e]; exact ⟨h.1, ih h.2⟩
      · rename_i e; rw [if_neg e]; exact ih h
  exact this h

/-- C54 for paths that do not escape: whatever happens, also on a panic, nothing outside the working directory changes. Missing: exactly the
other paths (`C54_exact`, and refuted below). -/
theorem C54_confined_partial {ε : Type} (m : Build) (cwd : Loc) (fs : FS) (piece : Bytes) (idx : Nat) (files : List File) (pl : Nat)
    (h : ∀ f ∈ files, ¬ Escapes (joinPath f.path)) :
    OnlyBelow cwd fs (writePiece m cwd fs piece idx files pl : Res ε Unit × FS).2 := by
  unfold writePiece
  cases hw : (getFileWriters m files piece idx pl : Res ε (List FileWriter)) with
  | ok ws => exact writeAllParts_confined (getFileWriters_paths m (fun p => ¬ Escapes (joinPath p)) h hw)
  | err e => exact onlyBelow_refl _ _
  | panic => exact onlyBelow_refl _ _
  | hang => exact onlyBelow_refl _ _

/-- Non-vacuity: odd but harmless paths, e.g. an empty component, a name with a slash, a detour over `..`. -/
example : ¬ Escapes (joinPath [b!"a", [], b!"b/c", b!"..d", b!"..", b!"../../x"]) := by
  apply not_escapes_of_stays <;> decide

/-- The first piece of a torrent of one file goes to that file. -/
theorem getFileWriters_single {ε : Type} (m : Build) (f : File) (piece : Bytes) (pl : Nat) (hpos : 0 < f.length) (hlen : f.length < 2 ^ 64)
    (hne : piece ≠ []) (hp : piece.length < 2 ^ 64) :
    ∃ w : FileWriter, (getFileWriters m [f] piece 0 pl : Res ε _) = .ok [w] ∧ w.path = f.path := by
  obtain ⟨ps, h1, h2, h3, h4, h5, -⟩ := getFileWriters_spec (ε := ε) m [f] piece 0 pl (by simpa [total] using hlen) (by omega)
  have hmem : ∀ p ∈ ps, p.file = 0 := by
    intro p hp
    obtain ⟨g, hg, -⟩ := placed_mem h2 p hp
    have := (List.getElem?_eq_some_iff.mp hg).1
    simp at this
    exact this
  obtain ⟨p0, hp0, -⟩ := h5 0 f rfl (by omega) (by have := List.length_pos_iff.mpr hne; simp [fileStart]; omega)
  match ps, h1, h3, hmem, hp0 with
  | [], _, _, _, h => cases h
  | [p], h1, _, hmem, _ =>
    refine ⟨_, h1, ?_⟩
    simp [toWriter, hmem p (by simp)]
  | p :: p' :: ps, _, h3, hmem, _ =>
    have e0 := hmem p (by simp)
    have e1 := hmem p' (by simp)
    simp only [List.map_cons, List.pairwise_cons] at h3
    have := h3.1 p'.file (by simp)
    omega

/-- C54, exactly: a torrent of one file stays within the working directory, for every working directory and every state of the disk, just if
its path does not escape. -/
theorem C54_exact (f : File) (hpos : 0 < f.length) (hlen : f.length < 2 ^ 64) :
    (∀ m cwd fs piece pl, OnlyBelow cwd fs (writePiece (ε := Unit) m cwd fs piece 0 [f] pl).2) ↔ ¬ Escapes (joinPath f.path) := by
  constructor
  · intro h he
    obtain ⟨n, k, -, -, hw⟩ := escapes_witness he
    have := h .release (List.replicate k (List.replicate n c!"x")) (fun _ => none) [0] 1
    obtain ⟨w, e, hp⟩ := getFileWriters_single (ε := Unit) .release f [0] 1 hpos hlen (by simp) (by simp)
    rw [writePiece, e] at this
    simp only [writeAllParts] at this
    refine hw Unit w (by rw [hp]) ?_
    generalize (FileWriter.writeToFilesystem (ε := Unit) (List.replicate k (List.replicate n c!"x")) (fun _ => none) w) = r at this ⊢
    obtain ⟨r1, fs1⟩ := r
    cases r1 <;> exact this
  · intro h m cwd fs piece pl
    exact C54_confined_partial m cwd fs piece 0 [f] pl (by simpa using h)

/-- Non-vacuity: a path that escapes although its last component does not lead out, and one that does not although it leads out. -/
example : Escapes (joinPath [b!"..", b!"a", b!".."]) ∧ ¬ Escapes (joinPath [b!"a", b!"..", b!".."]) := by
  constructor
  · exact ⟨[b!".."], b!"a", [b!".."], by decide, by decide, .inr (by decide), by decide⟩
  · rintro ⟨q, c, r, h1, h2, h3, -⟩
    have hc : (PathBuf.parse (joinPath [b!"a", b!"..", b!".."])).comps = [b!"a", b!"..", b!".."] := by decide
    rw [hc] at h1
    match q, h1 with
    | [], h1 => exact h3.elim (by decide) (fun h => h trivial)
    | [x], h1 => simp only [List.cons_append, List.nil_append, List.cons.injEq] at h1; exact h2 h1.2.1.symm
    | [x, y], h1 => simp only [List.cons_append, List.nil_append, List.cons.injEq] at h1; exact h2 h1.2.2.1.symm
    | x :: y :: z :: q, h1 => have := congrArg List.length h1; simp at this

/-- The full C54 is false: metadata with `..` in a path is accepted, and the file lands outside the working directory;
so does one with an absolute path. -/
theorem C54_refuted :
    (∃ info : Info, Info.fromBytes b!"d5:filesld6:lengthi1e4:pathl2:..1:xeee4:name1:n12:piece lengthi1e6:pieces1:pe" = .ok info ∧
      info.getFiles = .ok [⟨[b!"..", b!"x"], 1⟩]) ∧
    (writePiece (ε := Unit) .release [b!"home", b!"u"] (fun _ => none) [7] 0 [⟨[b!"..", b!"x"], 1⟩] 1).2 [b!"home", b!"x"] = some (.file [7]) ∧
    (writePiece (ε := Unit) .release [b!"home", b!"u"] (fun _ => none) [7] 0 [⟨[b!"/etc/x"], 1⟩] 1).2 [b!"etc", b!"x"] = some (.file [7]) := by
  refine ⟨⟨⟨some [⟨[b!"..", b!"x"], 1⟩], none, b!"n", 1, b!"p"⟩, by decide +kernel, rfl⟩, by decide +kernel, by decide +kernel⟩

/-! ### C55 -/

/-- C55: for ordinary paths, and if no file is in the place of a directory or the other way round, writing any piece succeeds. Missing: other paths
(refuted below). -/
theorem C55_no_panic_partial {ε : Type} (m : Build) (cwd : Loc) (fs : FS) (piece : Bytes) (idx : Nat) (files : List File) (pl : Nat)
    (hplain : ∀ f ∈ files, Plain f.path) (hsep : Separate files) (hclear : Clear fs cwd files)
    (ht : total files < 2 ^ 64) (hp : idx * pl + piece.length < 2 ^ 64) :
    ∃ fs', (writePiece m cwd fs piece idx files pl : Res ε Unit × FS) = (.ok (), fs') ∧ Clear fs' cwd files := by
  obtain ⟨ps, h1, h2, -, h4, -⟩ := getFileWriters_spec (ε := ε) m files piece idx pl ht hp
  have hd : piece = (List.replicate (idx * pl) 0 ++ piece).drop (idx * pl) := by
    rw [List.drop_append_of_le_length (by simp), List.drop_of_length_le (by simp), List.nil_append]
  have hr := right_of_placed (d := List.replicate (idx * pl) 0 ++ piece) (n := total files - idx * pl) h2 (by rw [← hd]; exact h4)
  obtain ⟨fs', e, r, -⟩ := write_clear (ε := ε) ps hplain hsep hclear hr
  refine ⟨fs', ?_, r⟩
  rw [writePiece, h1]
  exact e

/-- Non-vacuity: `sampleLayout`. -/
example : ∃ fs', (writePiece (ε := Unit) .debug [b!"home"] sampleFs [8, 9] 1 sampleFiles 2) = (.ok (), fs') ∧
    Clear fs' [b!"home"] sampleFiles :=
  C55_no_panic_partial .debug _ _ _ _ _ _ sampleLayout.plain sampleLayout.separate (room_clear sampleLayout.room) (by decide) (by decide)

theorem writeAllParts_panic {ε : Type} {cwd : Loc} {ws : List FileWriter} : ∀ {fs : FS},
    ((writeAllParts cwd fs ws : Res ε Unit × FS).1 = .ok () ∨ (writeAllParts cwd fs ws : Res ε Unit × FS).1 = .panic) ∧
    ((writeAllParts cwd fs ws : Res ε Unit × FS).1 = .panic ↔ ∃ pre w post fs1, ws = pre ++ w :: post ∧
      (writeAllParts cwd fs pre : Res ε Unit × FS) = (.ok (), fs1) ∧ ¬ Writable fs1 cwd (joinPath w.path)) := by
  induction ws with
  | nil => intro fs; exact ⟨.inl rfl, by simp [writeAllParts]⟩
  | cons w ws ih =>
    intro fs
    have hiff := writeToFilesystem_ok_iff (ε := ε) (cwd := cwd) (fs := fs) (w := w)
    have hop := writeToFilesystem_ok_or_panic (ε := ε) (cwd := cwd) (fs := fs) (w := w)
    rw [writeAllParts]
    cases hr : (w.writeToFilesystem cwd fs : Res ε Unit × FS) with
    | mk r1 fs1 =>
      rw [hr] at hiff hop
      rcases hop with rfl | rfl
      · refine ⟨(ih (fs := fs1)).1, (ih (fs := fs1)).2.trans ?_⟩
        constructor
        · rintro ⟨pre, v, post, fs2, rfl, h2, h3⟩
          exact ⟨w :: pre, v, post, fs2, rfl, by rw [writeAllParts, hr]; exact h2, h3⟩
        · rintro ⟨pre, v, post, fs2, h1, h2, h3⟩
          cases pre with
          | nil =>
            simp only [List.nil_append, List.cons.injEq] at h1
            cases h2
            rw [← h1.1] at h3
            exact absurd (hiff.mp rfl) h3
          | cons u pre =>
            simp only [List.cons_append, List.cons.injEq] at h1
            obtain ⟨rfl, rfl⟩ := h1
            rw [writeAllParts, hr] at h2
            exact ⟨pre, v, post, fs2, rfl, h2, h3⟩
      · refine ⟨.inr rfl, fun _ => ⟨[], w, ws, fs, rfl, rfl, fun h => ?_⟩, fun _ => rfl⟩
        have := hiff.mpr h
        cases this

/-- C55, exactly when writing a piece panics: at the first of its parts whose path cannot be served in the state of the disk by then. -/
theorem C55_exact {ε : Type} (m : Build) (cwd : Loc) (fs : FS) (piece : Bytes) (idx : Nat) (files : List File) (pl : Nat)
    (ht : total files < 2 ^ 64) (hp : idx * pl + piece.length < 2 ^ 64) :
    ∃ ws, (getFileWriters m files piece idx pl : Res ε _) = .ok ws ∧
      ((writePiece m cwd fs piece idx files pl : Res ε Unit × FS).1 = .ok () ∨ (writePiece m cwd fs piece idx files pl : Res ε Unit × FS).1 = .panic) ∧
      ((writePiece m cwd fs piece idx files pl : Res ε Unit × FS).1 = .panic ↔ ∃ pre w post fs1, ws = pre ++ w :: post ∧
        (writeAllParts cwd fs pre : Res ε Unit × FS) = (.ok (), fs1) ∧ ¬ Writable fs1 cwd (joinPath w.path)) := by
  obtain ⟨ps, h1, -⟩ := getFileWriters_spec (ε := ε) m files piece idx pl ht hp
  refine ⟨_, h1, ?_⟩
  rw [writePiece, h1]
  exact writeAllParts_panic

/-- C55, exactly, for a torrent of one file: writing its first piece succeeds just if the path can be served. -/
theorem C55_exact_single {ε : Type} (m : Build) (cwd : Loc) (fs : FS) (f : File) (piece : Bytes) (pl : Nat) (hpos : 0 < f.length)
    (hlen : f.length < 2 ^ 64) (hne : piece ≠ []) (hp : piece.length < 2 ^ 64) :
    ((writePiece m cwd fs piece 0 [f] pl : Res ε Unit × FS).1 = .ok () ↔ Writable fs cwd (joinPath f.path)) ∧
    ((writePiece m cwd fs piece 0 [f] pl : Res ε Unit × FS).1 = .panic ↔ ¬ Writable fs cwd (joinPath f.path)) := by
  obtain ⟨w, e, hw⟩ := getFileWriters_single (ε := ε) m f piece pl hpos hlen hne hp
  have h1 := writeToFilesystem_ok_iff (ε := ε) (cwd := cwd) (fs := fs) (w := w)
  have h2 := writeToFilesystem_ok_or_panic (ε := ε) (cwd := cwd) (fs := fs) (w := w)
  rw [writePiece, e, ← hw]
  simp only [writeAllParts]
  cases hr : (w.writeToFilesystem cwd fs : Res ε Unit × FS) with
  | mk r1 fs1 =>
    rw [hr] at h1 h2
    rcases h2 with rfl | rfl
    · simp only [true_iff, reduceCtorEq, false_iff, Classical.not_not]
      exact ⟨h1.mp rfl, h1.mp rfl⟩
    · have hn : ¬ Writable fs cwd (joinPath w.path) := fun h => by cases h1.mpr h
      simp [hn]

/-- Non-vacuity: paths that can be served, and paths that cannot: one where a directory would have to be made in the place of the file, and one
through a file. -/
example : Writable (fun _ => none) [b!"u"] (joinPath [b!"a", b!"..", b!"b"]) ∧ ¬ Writable (fun _ => none) [b!"u"] (joinPath [b!"a", b!"..", b!"a"]) ∧
    ¬ Writable (fun l => if l = [b!"u", b!"a"] then some (.file []) else none) [b!"u"] (joinPath [b!"a", b!"b"]) := by
  refine ⟨?_, fun h => ?_, fun h => ?_⟩
  · rw [← writeToFilesystem_ok_iff (ε := Unit) (w := ⟨_, 0, 0, []⟩)]; decide +kernel
  · rw [← writeToFilesystem_ok_iff (ε := Unit) (w := ⟨_, 0, 0, []⟩)] at h
    exact absurd h (by decide +kernel)
  · rw [← writeToFilesystem_ok_iff (ε := Unit) (w := ⟨_, 0, 0, []⟩)] at h
    exact absurd h (by decide +kernel)

/-- The full C55 is false: metadata with an empty path is accepted and makes `write` panic. -/
theorem C55_refuted :
    (∃ info : Info, Info.fromBytes b!"d5:filesld6:lengthi1e4:pathleee4:name1:n12:piece lengthi1e6:pieces1:pe" = .ok info ∧
      info.getFiles = .ok [⟨[], 1⟩]) ∧
    ∀ cwd fs, (writePiece (ε := Unit) .release cwd fs [7] 0 [⟨[], 1⟩] 1).1 = .panic := by
  refine ⟨⟨⟨some [⟨[], 1⟩], none, b!"n", 1, b!"p"⟩, by decide +kernel, rfl⟩, fun cwd fs => rfl⟩

end RustBit
