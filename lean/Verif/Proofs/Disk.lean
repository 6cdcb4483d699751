import Verif.Spec.Disk
import Verif.Proofs.Writer

/-!
Writing to a disk that fails.
-/

namespace RustBit
open Spec

/-- If the call returns, the file system is the one after a write of the bytes taken. -/
theorem writeFaulty_ok {ε : Type} {ev : DiskEv} {cwd : Loc} {fs fs' : FS} {w : FileWriter}
    (h : (w.writeFaulty ev cwd fs : Res ε Unit × FS) = (.ok (), fs')) :
    ∃ n, ev.takes = some n ∧ (({ w with piece := w.piece.take n } : FileWriter).writeToFilesystem cwd fs : Res ε Unit × FS) = (.ok (), fs') := by
  unfold FileWriter.writeFaulty at h
  unfold FileWriter.writeToFilesystem
  simp only [] at h ⊢
  by_cases hc : (PathBuf.parse (joinPath w.path)).comps = []
  · rw [if_pos hc] at h; cases h
  · rw [if_neg hc] at h
    simp only [hc, if_false]
    cases hd : ev.dirs with
    | some k => rw [hd] at h; cases h
    | none =>
      rw [hd] at h
      simp only [] at h
      revert h
      rcases fs.createDirAll ((PathBuf.parse (joinPath w.path)).base cwd) (PathBuf.parse (joinPath w.path)).comps.dropLast with ⟨r, fs1⟩
      cases r with
      | ok u =>
        simp only []
        intro h
        split at h
        · revert h
          cases fs1.openCreate cwd (PathBuf.parse (joinPath w.path)) with
          | ok a =>
            obtain ⟨l, fs2⟩ := a
            simp only []
            intro h
            cases ht : ev.takes with
            | none => rw [ht] at h; cases h
            | some n => rw [ht] at h; exact ⟨n, rfl, h⟩
          | err e => intro h; cases h
          | panic => intro h; cases h
          | hang => intro h; cases h
        · cases h
      | err e => intro h; cases h
      | panic => intro h; cases h
      | hang => intro h; cases h

/-- On a sound disk the call does what it should. -/
theorem writeFaulty_sound {ε : Type} {ev : DiskEv} {cwd : Loc} {fs : FS} {w : FileWriter} (hd : ev.dirs = none) (ho : ev.opens = true)
    {n : Nat} (ht : ev.takes = some n) (hn : w.piece.length ≤ n) :
    (w.writeFaulty ev cwd fs : Res ε Unit × FS) = w.writeToFilesystem cwd fs := by
  unfold FileWriter.writeFaulty FileWriter.writeToFilesystem
  simp only [hd, ho, ht, if_true, List.take_of_length_le hn]
  split
  · rfl
  · rcases fs.createDirAll ((PathBuf.parse (joinPath w.path)).base cwd) (PathBuf.parse (joinPath w.path)).comps.dropLast with ⟨r, fs1⟩
    cases r with
    | ok u => simp only []; cases fs1.openCreate cwd (PathBuf.parse (joinPath w.path)) <;> rfl
    | err e => rfl
    | panic => rfl
    | hang => rfl

theorem beyond_same {cwd : Loc} {fs fs' : FS} {g : File} (h : fs' (cwd ++ g.path) = fs (cwd ++ g.path)) : beyond fs' cwd g = beyond fs cwd g := by
  rw [beyond, beyond, readFile, readFile, h]

/-- Directories made for a file take no place from any. -/
theorem mkdirs_keep {cwd : Loc} {files : List File} {fs : FS} {f : File} (hplain : ∀ f ∈ files, Plain f.path) (hsep : Separate files)
    (hroom : Clear fs cwd files) (hf : f ∈ files) {comps : List Bytes} (hpre : comps <+: f.path.dropLast) :
    ∃ fs', fs.createDirAll cwd comps = (.ok (), fs') ∧ Clear fs' cwd files ∧ (∀ p, OnDisk fs cwd files p → OnDisk fs' cwd files p) ∧
      ∀ g ∈ files, fs' (cwd ++ g.path) = fs (cwd ++ g.path) := by
  have hne := (hplain f hf).1
  obtain ⟨r1, r2⟩ := hroom f hf
  have hin : ∀ q, q <+: comps → q <+: f.path ∧ q ≠ f.path := fun q hq => dropLast_prefix_ne hne (hq.trans hpre)
  obtain ⟨fs', e, h1, h2, -⟩ := createDirAll_plain (base := cwd) comps (fs := fs)
    (fun c hc => plain_names (hplain f hf) c ((hpre.trans (List.dropLast_prefix _)).subset hc))
    (fun q c hq hp => r1 q c (hin q hp).1 (hin q hp).2 hq)
  have hfile : ∀ g ∈ files, fs' (cwd ++ g.path) = fs (cwd ++ g.path) := by
    intro g hg
    apply h2
    intro q hq hp e'
    have e'' := List.append_cancel_left e'
    obtain ⟨i, hi⟩ := List.getElem?_of_mem hf
    obtain ⟨j, hj⟩ := List.getElem?_of_mem hg
    have hgf : g.path <+: f.path := by rw [e'']; exact (hin q hp).1
    have := hsep j i g f hj hi hgf
    rw [this, hi] at hj
    cases hj
    exact (hin q hp).2 e''.symm
  have hdir : ∀ q, fs' (cwd ++ q) = some .dir ∨ fs' (cwd ++ q) = fs (cwd ++ q) := by
    intro q
    by_cases hq : q ≠ [] ∧ q <+: comps
    · exact .inl (h1 q hq.1 hq.2)
    · right
      apply h2
      intro q' hq' hp' e'
      rw [List.append_cancel_left e'] at hq
      exact hq ⟨hq', hp'⟩
  refine ⟨fs', e, fun g hg => ?_, ?_, hfile⟩
  · obtain ⟨g1, g2⟩ := hroom g hg
    refine ⟨fun q c hp hqne hq hc => ?_, by rw [hfile g hg]; exact g2⟩
    rcases hdir q with h | h
    · rw [h] at hc; cases hc
    · rw [h] at hc; exact g1 q c hp hqne hq hc
  · rintro p ⟨g, c, hg, hc, hb, hd⟩
    refine ⟨g, c, hg, by rw [hfile g (List.mem_of_getElem? hg)]; exact hc, hb, fun q hq hp hqne => ?_⟩
    rcases hdir q with h | h
    · exact h
    · rw [h]; exact hd q hq hp hqne

theorem right_upTo {files : List File} {d : Bytes} {p : Part} (h : Right files d p) (n : Nat) : Right files d (p.upTo n) := by
  obtain ⟨f, h1, h2, h3⟩ := h
  have hn : (p.data.take n).length = min n p.data.length := List.length_take
  refine ⟨f, h1, by simp only [Part.upTo]; omega, ?_⟩
  intro i hi
  simp only [Part.upTo] at hi ⊢
  rw [List.getElem?_take, if_pos (by omega)]
  exact h3 i (by omega)

/-- One call on an arbitrary disk. -/
theorem step_faulty {ε : Type} {cwd : Loc} {files : List File} {d : Bytes} {fs : FS} {p : Part} (ev : DiskEv)
    (hplain : ∀ f ∈ files, Plain f.path) (hsep : Separate files) (hroom : Clear fs cwd files) (hp : Right files d p) :
    ∃ r fs', ((toWriter files p).writeFaulty ev cwd fs : Res ε Unit × FS) = (r, fs') ∧ (r = .ok () ∨ r = .panic) ∧
      Clear fs' cwd files ∧ (∀ p', Right files d p' → OnDisk fs cwd files p' → OnDisk fs' cwd files p') ∧
      (∀ g ∈ files, beyond fs' cwd g = beyond fs cwd g) ∧ (r = .ok () → ∃ n, ev.takes = some n ∧ OnDisk fs' cwd files (p.upTo n)) ∧
      (r = .ok () ↔ ev.dirs = none ∧ ev.opens = true ∧ ev.takes ≠ none) := by
  obtain ⟨f, hf, hle, hdata⟩ := hp
  have hp : Right files d p := ⟨f, hf, hle, hdata⟩
  have hmem : f ∈ files := List.mem_of_getElem? hf
  have hw : (toWriter files p).path = f.path := by simp [toWriter, hf]
  have hpar := parse_plain f.path (hplain f hmem)
  have hne := (hplain f hmem).1
  -- the same call on a sound disk that takes `n` bytes
  have hsound : ∀ n, ∃ fs1 l fs2 fs', fs.createDirAll cwd f.path.dropLast = (.ok (), fs1) ∧
      fs1.openCreate cwd ⟨false, f.path, false⟩ = .ok (l, fs2) ∧ fs' = fs2.writeAt l p.offset (p.data.take n) ∧
      Clear fs' cwd files ∧ (∀ p', Right files d p' → OnDisk fs cwd files p' → OnDisk fs' cwd files p') ∧
      (∀ g ∈ files, beyond fs' cwd g = beyond fs cwd g) ∧ OnDisk fs' cwd files (p.upTo n) := by
    intro n
    obtain ⟨fs', e, h1, h2, h3, -, -, -, h4⟩ := step_clear (ε := ε) hplain hsep hroom (right_upTo hp n)
    unfold FileWriter.writeToFilesystem at e
    have hw' : (toWriter files (p.upTo n)).path = f.path := by simp [toWriter, Part.upTo, hf]
    simp only [hw', hpar, hne, if_false] at e
    simp only [PathBuf.base, Bool.false_eq_true, if_false] at e
    revert e
    rcases hcd : fs.createDirAll cwd f.path.dropLast with ⟨r, fs1⟩
    cases r with
    | ok u =>
      simp only []
      cases ho : fs1.openCreate cwd ⟨false, f.path, false⟩ with
      | ok a =>
        obtain ⟨l, fs2⟩ := a
        simp only []
        intro e
        have e := (Prod.mk.inj e).2
        exact ⟨fs1, l, fs2, fs', rfl, ho, e.symm, h1, h3, h4, h2⟩
      | err e => intro e; cases e
      | panic => intro e; cases e
      | hang => intro e; cases e
    | err e => intro e; cases e
    | panic => intro e; cases e
    | hang => intro e; cases e
  unfold FileWriter.writeFaulty
  simp only [hw, hpar, hne, if_false]
  simp only [PathBuf.base, Bool.false_eq_true, if_false]
  cases hd : ev.dirs with
  | some k =>
    obtain ⟨fs', e, h1, h2, h3⟩ := mkdirs_keep hplain hsep hroom hmem (List.take_prefix k f.path.dropLast)
    exact ⟨_, _, rfl, .inr rfl, by rw [e]; exact h1, fun p' _ => (by rw [e]; exact h2 p'), fun g hg => (by rw [e]; exact beyond_same (h3 g hg)), fun h => (by cases h), by simp⟩
  | none =>
    simp only []
    obtain ⟨fs1, l, fs2, fs', e1, e2, e3, h1, h2, hb, h3⟩ := hsound 0
    cases ho : ev.opens with
    | false =>
      obtain ⟨fs1', e1', g1, g2, g3⟩ := mkdirs_keep hplain hsep hroom hmem (List.prefix_refl f.path.dropLast)
      rw [e1']
      exact ⟨_, _, rfl, .inr rfl, g1, fun p' _ => g2 p', fun g hg => beyond_same (g3 g hg), fun h => (by cases h), by simp⟩
    | true =>
      cases ht : ev.takes with
      | none =>
        rw [e1]
        simp only [if_true, e2]
        have hs : fs2.writeAt l p.offset (p.data.take 0) = fs2 := by
          unfold FS.writeAt
          cases hl : fs2 l with
          | none => rfl
          | some x =>
            cases x with
            | dir => rfl
            | file c =>
              simp only [List.take_zero, pwrite, if_true]
              funext y
              simp only [FS.set]
              split
              · rename_i ey; rw [ey, hl]
              · rfl
        rw [hs] at e3
        subst e3
        exact ⟨_, _, rfl, .inr rfl, h1, h2, hb, fun h => (by cases h), by simp⟩
      | some n =>
        obtain ⟨gs1, k, gs2, gs', d1, d2, d3, k1, k2, kb, k3⟩ := hsound n
        rw [d1]
        simp only [if_true, d2]
        refine ⟨_, _, rfl, .inl rfl, ?_, ?_, ?_, fun _ => ⟨n, rfl, ?_⟩, by simp⟩
        · rw [d3] at k1; exact k1
        · rw [d3] at k2; exact k2
        · rw [d3] at kb; exact kb
        · rw [d3] at k3; exact k3

theorem write_faulty {ε : Type} {cwd : Loc} {files : List File} {d : Bytes} (disk : Disk) (ps : List Part) : ∀ {t : Nat} {fs : FS},
    (∀ f ∈ files, Plain f.path) → Separate files → Clear fs cwd files → (∀ p ∈ ps, Right files d p) →
    ∃ r fs', (writeAllFaulty disk cwd t fs (ps.map (toWriter files)) : Res ε Unit × FS) = (r, fs') ∧ (r = .ok () ∨ r = .panic) ∧
      Clear fs' cwd files ∧ (∀ p', Right files d p' → OnDisk fs cwd files p' → OnDisk fs' cwd files p') ∧
      (∀ g ∈ files, beyond fs' cwd g = beyond fs cwd g) ∧
      (r = .ok () → ∀ (i : Nat) p, ps[i]? = some p → ∃ n, (disk (t + i)).takes = some n ∧ OnDisk fs' cwd files (p.upTo n)) ∧
      (r = .ok () ↔ ∀ i, i < ps.length → (disk (t + i)).dirs = none ∧ (disk (t + i)).opens = true ∧ (disk (t + i)).takes ≠ none) := by
  induction ps with
  | nil => intro t fs _ _ hr _; exact ⟨_, fs, rfl, .inl rfl, hr, fun _ _ h => h, fun _ _ => rfl, fun _ i p h => (by simp at h), by simp⟩
  | cons p ps ih =>
    intro t fs hplain hsep hroom hps
    obtain ⟨r1, fs1, e1, c1, g1, k1, b1, o1, x1⟩ := step_faulty (ε := ε) (disk t) hplain hsep hroom (hps p (by simp))
    rw [List.map_cons, writeAllFaulty, e1]
    rcases c1 with rfl | rfl
    · obtain ⟨r2, fs2, e2, c2, g2, k2, b2, o2, x2⟩ := ih (t := t + 1) hplain hsep g1 (fun q hq => hps q (List.mem_cons_of_mem _ hq))
      refine ⟨r2, fs2, e2, c2, g2, fun q hq ho => k2 q hq (k1 q hq ho), fun g hg => (b2 g hg).trans (b1 g hg), fun hr i q hi => ?_, ?_⟩
      · cases i with
        | zero =>
          simp only [List.getElem?_cons_zero, Option.some.injEq] at hi
          subst hi
          obtain ⟨n, hn, ho⟩ := o1 rfl
          exact ⟨n, hn, k2 _ (right_upTo (hps p (by simp)) n) ho⟩
        | succ i =>
          obtain ⟨n, hn, ho⟩ := o2 hr i q (by simpa using hi)
          exact ⟨n, by rw [← hn]; congr 2; omega, ho⟩
      · rw [x2]
        constructor
        · intro h i hi
          cases i with
          | zero => exact x1.mp rfl
          | succ i =>
            have := h i (by simpa using hi)
            rw [show t + 1 + i = t + (i + 1) by omega] at this
            exact this
        · intro h i hi
          have := h (i + 1) (by simpa using hi)
          rw [show t + (i + 1) = t + 1 + i by omega] at this
          exact this
    · refine ⟨_, fs1, rfl, .inr rfl, g1, k1, b1, fun h => (by cases h), ?_⟩
      constructor
      · intro h; cases h
      · intro h
        have := h 0 (by simp)
        exact absurd (x1.mpr this) (by simp)

end RustBit
