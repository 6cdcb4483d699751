/-
C87 and C105 for files whose paths are made of anything, on a disk that fails.
-/
import Verif.Props.Anywhere
import Verif.Props.Disk
import Verif.Props.LogOthers
import Verif.Props.Resume

namespace RustBit
open Spec

/-- Byte `x` of file `k` is on disk, in its place. -/
def HasByte (fs : FS) (cwd : Loc) (files : List File) (d : Bytes) (k x : Nat) : Prop :=
  ∃ f c, files[k]? = some f ∧ fs (place cwd f.path) = some (.file c) ∧ x < c.length ∧ c[x]? = d[fileStart files k + x]?

/-- Nothing that was there has changed, and what is new is a directory or an empty file. -/
def Quiet (fs fs' : FS) : Prop := ∀ l, (∀ n, fs l = some n → fs' l = some n) ∧ (fs l = none → ∀ c, fs' l = some (.file c) → c = [])

theorem quiet_refl (fs : FS) : Quiet fs fs := fun _ => ⟨fun _ h => h, fun h c hc => by rw [h] at hc; cases hc⟩

theorem quiet_trans {a b c : FS} (h1 : Quiet a b) (h2 : Quiet b c) : Quiet a c := by
  intro l
  refine ⟨fun n h => (h2 l).1 n ((h1 l).1 n h), fun h x hx => ?_⟩
  cases hb : b l with
  | none => exact (h2 l).2 hb x hx
  | some n =>
    rw [(h2 l).1 n hb] at hx
    cases hx
    exact (h1 l).2 h x hb

theorem quiet_dirs (fs : FS) (base : Loc) (comps : List Bytes) : Quiet fs (fs.createDirAll base comps).2 := by
  intro l
  have := createDirAllRev_adds (base := base) comps.reverse fs
  refine ⟨this.1 l, fun h c hc => ?_⟩
  rw [this.2 l c hc] at h
  cases h

/-- Opening a file changes nothing that is there. -/
theorem quiet_open {fs fs' : FS} {cwd l : Loc} {p : PathBuf} (e : fs.openCreate cwd p = .ok (l, fs')) : Quiet fs fs' := by
  unfold FS.openCreate at e
  split at e
  · cases e
  · split at e
    · cases e
    · cases hw : fs.walk (p.base cwd) p.comps.dropLast with
      | ok l1 =>
        rw [hw] at e
        simp only [Res.bind_ok] at e
        split at e
        · cases e
        · split at e
          · cases e
          · cases e; exact quiet_refl _
          · rename_i hnone
            cases e
            intro x
            refine ⟨fun n hx => ?_, fun hx c hc => ?_⟩ <;> unfold FS.set at *
            · rw [if_neg (fun hl => by rw [hl, hnone] at hx; cases hx)]
              exact hx
            · split at hc
              · cases hc; rfl
              · rw [hx] at hc; cases hc
      | err x => rw [hw] at e; cases e
      | panic => rw [hw] at e; cases e
      | hang => rw [hw] at e; cases e

/-- A call that does not return makes directories and perhaps an empty file. -/
theorem writeFaulty_fails {ε : Type} {ev : DiskEv} {cwd : Loc} {fs fs' : FS} {w : FileWriter} {r : Res ε Unit}
    (h : (w.writeFaulty ev cwd fs : Res ε Unit × FS) = (r, fs')) (hr : r ≠ .ok ()) : r = .panic ∧ Quiet fs fs' := by
  unfold FileWriter.writeFaulty at h
  simp only [] at h
  generalize PathBuf.parse (joinPath w.path) = p at h
  split at h
  · cases h; exact ⟨rfl, quiet_refl _⟩
  · split at h
    · cases h; exact ⟨rfl, quiet_dirs _ _ _⟩
    · have ha := quiet_dirs fs (p.base cwd) p.comps.dropLast
      revert h ha
      rcases fs.createDirAll (p.base cwd) p.comps.dropLast with ⟨r1, fs1⟩
      intro h ha
      cases r1 with
      | ok u =>
        simp only [] at h ha
        split at h
        · cases ho : fs1.openCreate cwd p with
          | ok a =>
            obtain ⟨l, fs2⟩ := a
            rw [ho] at h
            simp only [] at h
            split at h
            · cases h; exact absurd rfl hr
            · cases h
              exact ⟨rfl, quiet_trans ha (quiet_open ho)⟩
          | err e => rw [ho] at h; cases h; exact ⟨rfl, ha⟩
          | panic => rw [ho] at h; cases h; exact ⟨rfl, ha⟩
          | hang => rw [ho] at h; cases h; exact ⟨rfl, ha⟩
        · cases h; exact ⟨rfl, ha⟩
      | err e => cases h; exact ⟨rfl, ha⟩
      | panic => cases h; exact ⟨rfl, ha⟩
      | hang => cases h; exact ⟨rfl, ha⟩

/-- A part that is written leaves its bytes, and no byte that was right is wrong afterwards, if files in the same place agree. -/
theorem part_bytes {ε : Type} {cwd : Loc} {files : List File} {d : Bytes} {fs fs' : FS} {p : Part} (hA : Agreeing cwd files d) (hp : Right files d p)
    (h : ((toWriter files p).writeToFilesystem cwd fs : Res ε Unit × FS) = (.ok (), fs')) :
    (∀ x, p.offset ≤ x → x < p.offset + p.data.length → HasByte fs' cwd files d p.file x) ∧
    ∀ k x f, files[k]? = some f → x < f.length → HasByte fs cwd files d k x → HasByte fs' cwd files d k x := by
  obtain ⟨f, hf, hle, hdata⟩ := hp
  obtain ⟨h1, h2, h3, h4⟩ := writable_place.mp (writeToFilesystem_ok_iff.mp (by rw [h]))
  obtain ⟨fs1, e, k1, k2, k3, -⟩ := writeToFilesystem_place (ε := ε) h1 h2 h3 h4
  rw [h] at e
  cases e
  have hw : (toWriter files p).path = f.path := by simp [toWriter, hf]
  rw [hw] at h3 k1 k2 k3
  rw [show (toWriter files p).start = p.offset from rfl, show (toWriter files p).piece = p.data from rfl] at k1
  have inside : ∀ x, p.offset ≤ x → x < p.offset + p.data.length →
      (pwrite ((readFile fs (place cwd f.path)).getD []) p.offset p.data)[x]? = d[fileStart files p.file + x]? := by
    intro x hx hy
    rw [pwrite_inside _ _ _ _ hx hy, hdata _ (by omega)]
    congr 1
    omega
  have short : ∀ x, p.offset ≤ x → x < p.offset + p.data.length → x < (pwrite ((readFile fs (place cwd f.path)).getD []) p.offset p.data).length := by
    intro x hx hy
    refine Classical.byContradiction fun hn => ?_
    have h0 := pwrite_inside ((readFile fs (place cwd f.path)).getD []) p.offset p.data x hx hy
    rw [List.getElem?_eq_none (by omega)] at h0
    have := List.getElem?_eq_none_iff.mp h0.symm
    omega
  refine ⟨fun x hx hy => ⟨f, _, hf, k1, short x hx hy, inside x hx hy⟩, fun k x g hg hxg => ?_⟩
  rintro ⟨g', c, hg', hc, hlt, hb⟩
  rw [hg] at hg'
  cases hg'
  by_cases hjp : place cwd g.path = place cwd f.path
  · refine ⟨g, _, hg, by rw [hjp]; exact k1, ?_⟩
    have hcc : (readFile fs (place cwd f.path)).getD [] = c := by simp [readFile, ← hjp, hc]
    rw [hcc] at inside short ⊢
    by_cases hin : p.offset ≤ x ∧ x < p.offset + p.data.length
    · exact ⟨short x hin.1 hin.2, by rw [inside x hin.1 hin.2, hA k p.file g f hg hf hjp x hxg (by omega)]⟩
    · exact ⟨Nat.lt_of_lt_of_le hlt (pwrite_grows _ _ _), by rw [pwrite_outside _ _ _ _ hlt (by omega)]; exact hb⟩
  · refine ⟨g, c, hg, ?_, hlt, hb⟩
    rw [k3 _ (fun hway => h3 _ c hway hc) hjp]
    exact hc

/-- The parts of a piece on an arbitrary disk. -/
theorem parts_bytes {ε : Type} {disk : Disk} {cwd : Loc} {files : List File} {d : Bytes} (hA : Agreeing cwd files d) (ps : List Part) :
    ∀ {t : Nat} {fs fs' : FS} {r : Res ε Unit}, (∀ p ∈ ps, Right files d p) →
    (writeAllFaulty disk cwd t fs (ps.map (toWriter files)) : Res ε Unit × FS) = (r, fs') →
    (∀ k x f, files[k]? = some f → x < f.length → HasByte fs cwd files d k x → HasByte fs' cwd files d k x) ∧
    (r = .ok () → ∀ (i : Nat) p, ps[i]? = some p → ∃ n, (disk (t + i)).takes = some n ∧
      ∀ x, p.offset ≤ x → x < p.offset + min n p.data.length → HasByte fs' cwd files d p.file x) := by
  induction ps with
  | nil => intro t fs fs' r _ h; cases h; exact ⟨fun _ _ _ _ _ h => h, by simp⟩
  | cons p ps ih =>
    intro t fs fs' r hp h
    rw [List.map_cons, writeAllFaulty] at h
    cases hw : ((toWriter files p).writeFaulty (disk t) cwd fs : Res ε Unit × FS) with
    | mk r1 fs1 =>
      rw [hw] at h
      by_cases hr : r1 = .ok ()
      · subst hr
        obtain ⟨n, hn, e⟩ := writeFaulty_ok hw
        obtain ⟨b1, k1⟩ := part_bytes (ε := ε) (p := p.upTo n) hA (right_upTo (hp p (by simp)) n) e
        obtain ⟨k2, o2⟩ := ih (fun q hq => hp q (List.mem_cons_of_mem _ hq)) h
        refine ⟨fun k x f hk hx hb => k2 k x f hk hx (k1 k x f hk hx hb), fun hr i q hq => ?_⟩
        cases i with
        | zero =>
          simp only [List.getElem?_cons_zero, Option.some.injEq] at hq
          subst hq
          refine ⟨n, hn, fun x hx hy => ?_⟩
          obtain ⟨f, hf, hle, -⟩ := hp p (by simp)
          exact k2 _ x f hf (by omega) (b1 x hx (by simp only [Part.upTo, List.length_take]; exact hy))
        | succ i =>
          rw [List.getElem?_cons_succ] at hq
          obtain ⟨n', hn', hb⟩ := o2 hr i q hq
          exact ⟨n', by rw [show t + (i + 1) = t + 1 + i by omega]; exact hn', hb⟩
      · obtain ⟨rfl, hk⟩ := writeFaulty_fails hw hr
        cases h
        refine ⟨?_, fun h => by cases h⟩
        rintro k x f hf hx ⟨g, c, hg, hc, hb⟩
        exact ⟨g, c, hg, (hk _).1 _ hc, hb⟩

/-- Pieces on an arbitrary disk. -/
theorem pieces_bytes {ε : Type} {disk : Disk} {m : Build} {cwd : Loc} {files : List File} {d : Bytes} {pl : Nat} (hA : Agreeing cwd files d)
    (hlen : total files = d.length) (h64 : d.length < 2 ^ 64) (hpl : 0 < pl) (order : List (Nat × Nat)) : ∀ {fs fs' : FS} {r : Res ε Unit},
    (∀ e ∈ order, e.2 < pieceCount d.length pl) → (writePiecesFaulty disk m cwd files d pl fs order : Res ε Unit × FS) = (r, fs') →
    (∀ k x f, files[k]? = some f → x < f.length → HasByte fs cwd files d k x → HasByte fs' cwd files d k x) ∧
    (r = .ok () → ∀ e ∈ order, ∃ ps, PieceParts ε m files d pl e.2 ps ∧ ∀ (i : Nat) p, ps[i]? = some p → ∃ n, (disk (e.1 + i)).takes = some n ∧
      ∀ x, p.offset ≤ x → x < p.offset + min n p.data.length → HasByte fs' cwd files d p.file x) := by
  induction order with
  | nil => intro fs fs' r _ h; cases h; exact ⟨fun _ _ _ _ _ h => h, by simp⟩
  | cons e es ih =>
    intro fs fs' r ho h
    obtain ⟨t, i⟩ := e
    obtain ⟨ps, hps⟩ := pieceParts (ε := ε) (m := m) hlen h64 hpl (ho (t, i) (by simp))
    rw [writePiecesFaulty, writePieceFaulty, hps.writers] at h
    simp only [] at h
    cases hw : (writeAllFaulty disk cwd t fs (ps.map (toWriter files)) : Res ε Unit × FS) with
    | mk r1 fs1 =>
      rw [hw] at h
      obtain ⟨k1, o1⟩ := parts_bytes hA ps hps.right hw
      by_cases hr : r1 = .ok ()
      · subst hr
        obtain ⟨k2, o2⟩ := ih (fun e he => ho e (List.mem_cons_of_mem _ he)) h
        refine ⟨fun k x f hk hx hb => k2 k x f hk hx (k1 k x f hk hx hb), fun hr e he => ?_⟩
        rcases List.mem_cons.mp he with rfl | he
        · refine ⟨ps, hps, fun j p hp => ?_⟩
          obtain ⟨n, hn, hb⟩ := o1 rfl j p hp
          obtain ⟨f, hf, hle, -⟩ := hps.right p (List.mem_of_getElem? hp)
          exact ⟨n, hn, fun x hx hy => k2 _ x f hf (by omega) (hb x hx hy)⟩
        · exact o2 hr e he
      · have : r = r1 ∧ fs' = fs1 := by
          cases r1 with
          | ok u => exact absurd rfl hr
          | err e => cases h; exact ⟨rfl, rfl⟩
          | panic => cases h; exact ⟨rfl, rfl⟩
          | hang => cases h; exact ⟨rfl, rfl⟩
        obtain ⟨rfl, rfl⟩ := this
        exact ⟨k1, fun h => absurd h hr⟩

theorem hasByte_iff {fs : FS} {cwd : Loc} {files : List File} {d : Bytes} {k x : Nat} {f : File} (hk : files[k]? = some f) (hx : x < f.length)
    (hd : fileStart files k + x < d.length) :
    HasByte fs cwd files d k x ↔ diskByte fs [] (placedFiles cwd files) (fileStart files k + x) = d[fileStart files k + x]? := by
  rw [diskByte_file (placed_get hk) (by rw [placed_start]; omega) (by rw [placed_start]; show _ < _ + f.length; omega), placed_start, List.nil_append,
    show fileStart files k + x - fileStart files k = x by omega]
  show _ ↔ (readFile fs (place cwd f.path)).bind (fun c => c[x]?) = _
  constructor
  · rintro ⟨g, c, hg, hc, -, hb⟩
    rw [hk] at hg
    cases hg
    rw [readFile, hc]
    exact hb
  · intro h
    rw [List.getElem?_eq_getElem hd, Option.bind_eq_some_iff] at h
    obtain ⟨c, hc, hb⟩ := h
    refine ⟨f, c, hk, ?_, (List.getElem?_eq_some_iff.mp hb).1, by rw [hb, List.getElem?_eq_getElem hd]⟩
    unfold readFile at hc
    split at hc
    · rename_i c' hc'; cases hc; exact hc'
    · cases hc

/-- C87, whatever the paths are, whatever is on the disk and whatever the disk does: if files in the same place have the same bytes as far as both go, no byte of the content that is
in its place is lost or altered, wherever the writing stops; and if all writes are reported to succeed, what the disk took of each part is in its place. -/
theorem C87_bytes_partial {ε : Type} (disk : Disk) (m : Build) (cwd : Loc) (fs : FS) (files : List File) (d : Bytes) (pl : Nat) (order : List (Nat × Nat))
    (hlen : total files = d.length) (h64 : d.length < 2 ^ 64) (hpl : 0 < pl) (hA : Agreeing cwd files d) (ho : ∀ e ∈ order, e.2 < pieceCount d.length pl) :
    (∀ g, g < d.length → diskByte fs [] (placedFiles cwd files) g = d[g]? →
      diskByte (writePiecesFaulty disk m cwd files d pl fs order : Res ε Unit × FS).2 [] (placedFiles cwd files) g = d[g]?) ∧
    ((writePiecesFaulty disk m cwd files d pl fs order : Res ε Unit × FS).1 = .ok () → NeverShort disk d.length → ∀ e ∈ order, ∀ g, e.2 * pl ≤ g →
      g < (e.2 + 1) * pl → g < d.length →
      diskByte (writePiecesFaulty disk m cwd files d pl fs order : Res ε Unit × FS).2 [] (placedFiles cwd files) g = d[g]?) := by
  cases hw : (writePiecesFaulty disk m cwd files d pl fs order : Res ε Unit × FS) with
  | mk r fs' =>
    obtain ⟨hk, hb⟩ := pieces_bytes hA hlen h64 hpl order ho hw
    refine ⟨fun g hg h => ?_, fun hr hs e he g h1 h2 h3 => ?_⟩
    · obtain ⟨k, f, hf, ha, hb'⟩ := file_at (by rw [hlen]; exact hg)
      have hx : g = fileStart files k + (g - fileStart files k) := by omega
      rw [hx] at h hg ⊢
      exact (hasByte_iff hf (by omega) hg).mp (hk k _ f hf (by omega) ((hasByte_iff hf (by omega) hg).mpr h))
    · obtain ⟨ps, hps, hp⟩ := hb hr e he
      obtain ⟨p, hpm, c1, c2⟩ := hps.covers g h1 h2 h3
      obtain ⟨f, hf, hle, -⟩ := hps.right p hpm
      obtain ⟨j, hj⟩ := List.getElem?_of_mem hpm
      obtain ⟨n, hn, hx⟩ := hp j p hj
      have := hs _ _ hn
      have := fileStart_total hf
      have hg : g = fileStart files p.file + (g - fileStart files p.file) := by omega
      rw [hg] at h3 ⊢
      exact (hasByte_iff hf (by omega) h3).mp (hx _ (by omega) (by omega))

theorem piecesFaulty_reported {ε : Type} {disk : Disk} {m : Build} {cwd : Loc} {files : List File} {d : Bytes} {pl : Nat} (hs : NeverShort disk d.length)
    (order : List (Nat × Nat)) : ∀ {fs fs' : FS}, (writePiecesFaulty disk m cwd files d pl fs order : Res ε Unit × FS) = (.ok (), fs') →
    (writePieces m cwd files d pl fs (order.map (·.2)) : Res ε Unit × FS) = (.ok (), fs') := by
  induction order with
  | nil => intro fs fs' h; exact h
  | cons e es ih =>
    intro fs fs' h
    obtain ⟨t, i⟩ := e
    rw [writePiecesFaulty] at h
    cases hw : (writePieceFaulty disk t m cwd fs (piece d pl i) i files pl : Res ε Unit × FS) with
    | mk r fs1 =>
      rw [hw] at h
      cases r with
      | ok u =>
        have hl : (piece d pl i).length ≤ d.length := by simp [piece]; omega
        rw [List.map_cons, writePieces, C87_reported_partial disk t m cwd fs fs1 _ i files pl (fun t k hk => Nat.le_trans hl (hs t k hk)) hw]
        exact ih h
      | err e => cases h
      | panic => cases h
      | hang => cases h

/-- C87, whatever the paths are and whatever is on the disk: if all pieces are reported as written, on a disk that takes all it is given or reports an error, then the paths and
the disk were receptive, and each non-empty file holds its part of the content if and only if files in the same place have the same content and no longer file was in the
place of one. Missing: disks that take less than they are given (`C87_refuted`). -/
theorem C87_anywhere_partial {ε : Type} (disk : Disk) (m : Build) (cwd : Loc) (fs fs' : FS) (files : List File) (d : Bytes) (pl : Nat) (order : List (Nat × Nat))
    (hlen : total files = d.length) (h64 : d.length < 2 ^ 64) (hpl : 0 < pl) (hs : NeverShort disk d.length) (ho : ∀ e ∈ order, e.2 < pieceCount d.length pl)
    (hall : ∀ i, i < pieceCount d.length pl → ∃ t, (t, i) ∈ order)
    (hr : (writePiecesFaulty disk m cwd files d pl fs order : Res ε Unit × FS) = (.ok (), fs')) :
    Receptive cwd fs files pl ∧ (FilesRight fs' [] (placedFiles cwd files) d ↔
      Agreeing cwd files d ∧ SameLength cwd files ∧ NoneLonger fs [] (placedFiles cwd files)) := by
  have h := piecesFaulty_reported hs order hr
  have ho' : ∀ i ∈ order.map (·.2), i < pieceCount d.length pl := by
    intro i hi
    obtain ⟨e, he, rfl⟩ := List.mem_map.mp hi
    exact ho e he
  have hall' : ∀ i, i < pieceCount d.length pl → i ∈ order.map (·.2) := by
    intro i hi
    obtain ⟨t, ht⟩ := hall i hi
    exact List.mem_map.mpr ⟨_, ht, rfl⟩
  have hrec := (C55_whole (ε := ε) m cwd fs files d pl _ hlen h64 hpl ho' hall').1.mp (by rw [h])
  obtain ⟨fs1, e, hiff⟩ := C51_exactly (ε := ε) m cwd fs files d pl _ hlen h64 hpl ho' hall' hrec
  rw [h] at e
  cases e
  exact ⟨hrec, hiff⟩

/-- C87 exactly: where writing can succeed at all (`C55_whole`), the reports of a disk that takes all it is given or reports an error can be relied on just if files in the same
place have the same bytes as far as both go. -/
theorem C87_relied {ε : Type} (m : Build) (cwd : Loc) (fs : FS) (files : List File) (d : Bytes) (pl : Nat)
    (hlen : total files = d.length) (h64 : d.length < 2 ^ 64) (hpl : 0 < pl) (hr : Receptive cwd fs files pl) :
    (∀ (disk : Disk) (order : List (Nat × Nat)) (fs' : FS), NeverShort disk d.length → (∀ e ∈ order, e.2 < pieceCount d.length pl) →
      (writePiecesFaulty disk m cwd files d pl fs order : Res ε Unit × FS) = (.ok (), fs') → ∀ e ∈ order, ∀ g, e.2 * pl ≤ g → g < (e.2 + 1) * pl → g < d.length →
      diskByte fs' [] (placedFiles cwd files) g = d[g]?) ↔ Agreeing cwd files d := by
  constructor
  · intro h i j f g hi hj he x hx hy
    have sound : Sound (fun _ => ⟨none, true, some d.length⟩) d.length := fun t => ⟨rfl, rfl, _, rfl, Nat.le_refl _⟩
    have same : ∀ (order : List Nat) (fs : FS), (writePiecesFaulty (fun _ => ⟨none, true, some d.length⟩) m cwd files d pl fs (order.map (fun i => (0, i))) : Res ε Unit × FS) =
        writePieces m cwd files d pl fs order := by
      intro order
      induction order with
      | nil => intro fs; rfl
      | cons i is ih =>
        intro fs
        have hl : (piece d pl i).length ≤ d.length := by simp [piece]; omega
        rw [List.map_cons, writePiecesFaulty, writePieces, C87_sound _ 0 m cwd fs _ i files pl (fun t => ⟨rfl, rfl, _, rfl, hl⟩)]
        rcases (writePiece m cwd fs (piece d pl i) i files pl : Res ε Unit × FS) with ⟨r, fs1⟩
        cases r with
        | ok u => exact ih fs1
        | err e => rfl
        | panic => rfl
        | hang => rfl
    obtain ⟨fs', e, -⟩ := anywhere_pieces (ε := ε) (m := m) hlen h64 hpl (List.range (pieceCount d.length pl)) hr (fun i hi => List.mem_range.mp hi)
    rw [← same] at e
    have hb := h _ _ fs' (fun t k hk => by cases hk; exact Nat.le_refl _) (by
      intro e he
      obtain ⟨i, hi, rfl⟩ := List.mem_map.mp he
      exact List.mem_range.mp hi) e
    have at_ : ∀ k f, files[k]? = some f → x < f.length → (readFile fs' (place cwd f.path)).bind (fun c => c[x]?) = d[fileStart files k + x]? := by
      intro k f hk hx
      have := fileStart_total hk
      have hg : fileStart files k + x < d.length := by omega
      have := hb (0, (fileStart files k + x) / pl) (List.mem_map.mpr ⟨_, List.mem_range.mpr (lt_count hpl hg), rfl⟩) _ (pieceOf hpl).1 (pieceOf hpl).2 hg
      rw [diskByte_file (placed_get hk) (by rw [placed_start]; omega) (by rw [placed_start]; show _ < _ + f.length; omega), placed_start, List.nil_append,
        show fileStart files k + x - fileStart files k = x by omega] at this
      exact this
    rw [← at_ i f hi hx, ← at_ j g hj hy, he]
  · intro hA disk order fs' hs ho e
    have := (C87_bytes_partial (ε := ε) disk m cwd fs files d pl order hlen h64 hpl hA ho).2
    rw [e] at this
    exact this rfl hs

/-- C105, whatever the paths are and whatever is on the disk: a piece is said to be written only if it is, on a disk that takes all it is given or reports an error, if files in
the same place agree; and it is said if no call reports an error and the paths and the disk are receptive. Missing: disks that take less than they are given. -/
theorem C105_anywhere_partial (disk : Disk) (t : Nat) (m : Build) (cwd : Loc) (fs : FS) (files : List File) (d : Bytes) (pl i : Nat)
    (hlen : total files = d.length) (h64 : d.length < 2 ^ 64) (hpl : 0 < pl) (hi : i < pieceCount d.length pl) :
    (∀ r ∈ writePieceLog disk t m cwd fs (piece d pl i) i files pl, r = .pieceWritten i) ∧
    (NeverShort disk d.length → Agreeing cwd files d → .pieceWritten i ∈ writePieceLog disk t m cwd fs (piece d pl i) i files pl → ∀ g, i * pl ≤ g → g < (i + 1) * pl →
      g < d.length → diskByte (writePieceFaulty disk t m cwd fs (piece d pl i) i files pl : Res Unit Unit × FS).2 [] (placedFiles cwd files) g = d[g]?) ∧
    (Sound disk (piece d pl i).length → Receptive cwd fs files pl → writePieceLog disk t m cwd fs (piece d pl i) i files pl = [.pieceWritten i]) := by
  refine ⟨fun r hr => ?_, fun hs hA hr g h1 h2 h3 => ?_, fun hs hR => ?_⟩
  · unfold writePieceLog at hr
    split at hr
    · exact List.mem_singleton.mp hr
    · cases hr
  · unfold writePieceLog at hr
    split at hr
    · rename_i fs' hf
      have hone : (writePiecesFaulty disk m cwd files d pl fs [(t, i)] : Res Unit Unit × FS) = (.ok (), fs') := by
        rw [writePiecesFaulty, hf]
        rfl
      have := (C87_bytes_partial (ε := Unit) disk m cwd fs files d pl [(t, i)] hlen h64 hpl hA (by simpa using hi)).2
      rw [hone] at this
      rw [hf]
      exact this rfl hs (t, i) (by simp) g h1 h2 h3
    · cases hr
  · obtain ⟨fs1, e, -⟩ := anywhere_pieces (ε := Unit) (m := m) hlen h64 hpl [i] hR (by simpa using hi)
    unfold writePieceLog
    rw [C87_sound disk t m cwd fs (piece d pl i) i files pl hs]
    rw [writePieces] at e
    revert e
    rcases (writePiece m cwd fs (piece d pl i) i files pl : Res Unit Unit × FS) with ⟨r, fs2⟩
    intro e
    cases r with
    | ok u => rfl
    | err e' => cases e
    | panic => cases e
    | hang => cases e

/-- Non-vacuity: files with odd paths, two of them in one place, on a disk that fails once and on one that does not. -/
example : Receptive [b!"h"] (fun _ => none) oddFiles 2 ∧ Agreeing [b!"h"] oddFiles [1, 2, 3, 1, 2] ∧ total oddFiles = 5 ∧
    NeverShort (fun t => ⟨none, true, if t = 2 then none else some 5⟩) 5 ∧
    (writePiecesFaulty (fun t => ⟨none, true, if t = 2 then none else some 5⟩) .debug [b!"h"] oddFiles [1, 2, 3, 1, 2] 2 (fun _ => none) [(0, 0), (2, 1), (4, 2)] : Res Unit Unit × FS).1 = .panic ∧
    (writePiecesFaulty (fun _ => ⟨none, true, some 5⟩) .debug [b!"h"] oddFiles [1, 2, 3, 1, 2] 2 (fun _ => none) [(0, 0), (2, 1), (4, 2)] : Res Unit Unit × FS).1 = .ok () ∧
    diskByte (writePiecesFaulty (fun _ => ⟨none, true, some 5⟩) .debug [b!"h"] oddFiles [1, 2, 3, 1, 2] 2 (fun _ => none) [(0, 0), (2, 1), (4, 2)] : Res Unit Unit × FS).2 []
      (placedFiles [b!"h"] oddFiles) 3 = some 1 := by
  refine ⟨oddFiles_receptive, ?_, by decide +kernel, ?_, by decide +kernel, by decide +kernel, by decide +kernel⟩
  · have hlt : ∀ i (f : File), oddFiles[i]? = some f → i < 4 := fun i f h => (List.getElem?_eq_some_iff.mp h).1
    have key : ∀ (i j : Fin 4) (x : Fin 2), place [b!"h"] (oddFiles[i.1]?.getD ⟨[], 0⟩).path = place [b!"h"] (oddFiles[j.1]?.getD ⟨[], 0⟩).path →
        x.1 < (oddFiles[i.1]?.getD ⟨[], 0⟩).length → x.1 < (oddFiles[j.1]?.getD ⟨[], 0⟩).length →
        ([1, 2, 3, 1, 2] : Bytes)[fileStart oddFiles i.1 + x.1]? = ([1, 2, 3, 1, 2] : Bytes)[fileStart oddFiles j.1 + x.1]? := by decide +kernel
    have hlen : ∀ f ∈ oddFiles, f.length ≤ 2 := by decide
    intro i j f g hi hj he x hx hy
    have := hlen f (List.mem_of_getElem? hi)
    have h := key ⟨i, hlt i f hi⟩ ⟨j, hlt j g hj⟩ ⟨x, by omega⟩
    simp only [hi, hj, Option.getD_some] at h
    exact h he hx hy
  · intro t k h
    simp only [] at h
    split at h
    · cases h
    · cases h; omega

end RustBit
