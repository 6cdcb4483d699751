/-
Writing files whose paths are made of anything: the theory of Proofs/Writer without its condition on paths.
-/
import Verif.Spec.Anywhere
import Verif.Props.EndToEnd

namespace RustBit
open Spec

theorem joinPath_text : ∀ (path : List Bytes), joinPath path = pathText path
  | [] => rfl
  | [s] => by simp [joinPath, pathText]
  | s :: t :: r => by
    rw [joinPath, joinPath_text (t :: r)]
    · simp [pathText, List.intercalate]
    · simp

theorem way_prefix {cwd : Loc} {path r : List Bytes} {name : Bytes} (h : (PathBuf.parse (pathText path)).comps = r ++ [name]) {l : Loc} :
    Way cwd path l ↔ ∃ q c, q ++ [c] <+: r ∧ c ≠ b!".." ∧ l = lex ((PathBuf.parse (pathText path)).base cwd) (q ++ [c]) := by
  constructor
  · rintro ⟨q, c, n, t, h1, h2, h3⟩
    refine ⟨q, c, ?_, h2, h3⟩
    rw [h] at h1
    have : r = (q ++ c :: n :: t).dropLast := by rw [← h1, List.dropLast_concat]
    rw [this]
    refine ⟨(n :: t).dropLast, ?_⟩
    rw [List.dropLast_append_of_ne_nil (by simp)]
    simp
  · rintro ⟨q, c, ⟨t, ht⟩, h2, h3⟩
    subst ht
    cases t with
    | nil => exact ⟨q, c, name, [], by rw [h]; simp, h2, h3⟩
    | cons n t => exact ⟨q, c, n, t ++ [name], by rw [h]; simp, h2, h3⟩

/-- Writing a part of a file, wherever its path leads: the file gets the bytes, its directories exist, and nothing else changes. -/
theorem writeToFilesystem_place {ε : Type} {cwd : Loc} {fs : FS} {w : FileWriter} (hs : Servable w.path)
    (hw : ¬ Way cwd w.path (place cwd w.path)) (hf : ∀ l c, Way cwd w.path l → fs l ≠ some (.file c)) (hd : fs (place cwd w.path) ≠ some .dir) :
    ∃ fs', (w.writeToFilesystem cwd fs : Res ε Unit × FS) = (.ok (), fs') ∧
      fs' (place cwd w.path) = some (.file (pwrite ((readFile fs (place cwd w.path)).getD []) w.start w.piece)) ∧
      (∀ l, Way cwd w.path l → fs' l = some .dir) ∧
      (∀ l, ¬ Way cwd w.path l → l ≠ place cwd w.path → fs' l = fs l) ∧
      ((∀ l, Way cwd w.path l → fs l = some .dir) →
        (∃ c, fs (place cwd w.path) = some (.file c) ∧ pwrite c w.start w.piece = c) → fs' = fs) := by
  obtain ⟨⟨r, name, h1, h2⟩, h3, h4⟩ := hs
  have hway : ∀ l, Way cwd w.path l ↔ _ := fun l => way_prefix h1
  have hpl : place cwd w.path = lex ((PathBuf.parse (pathText w.path)).base cwd) r ++ [name] := by rw [place, h1, lex_snoc h2]
  have hdl : (PathBuf.parse (pathText w.path)).comps.dropLast = r := by rw [h1, List.dropLast_concat]
  unfold FileWriter.writeToFilesystem
  rw [joinPath_text]
  simp only []
  generalize PathBuf.parse (pathText w.path) = p at *
  obtain ⟨fs1, e1, ha1, hd1⟩ := createDirAllRev_dirs (base := p.base cwd) p.comps.dropLast.reverse (fs := fs)
    (by rw [List.reverse_reverse, hdl]; exact fun q c hq hc d => hf _ d ((hway _).mpr ⟨q, c, hq, hc, rfl⟩))
    (by rw [List.reverse_reverse]; exact hasNul_false.mpr (fun x hx => h4 x (List.dropLast_subset _ hx)))
  rw [List.reverse_reverse, hdl] at hd1
  rw [if_neg (by rw [h1]; simp), show fs.createDirAll (p.base cwd) p.comps.dropLast = (.ok (), fs1) from e1]
  simp only []
  have same : ∀ l, ¬ Way cwd w.path l → fs1 l = fs l := by
    intro l hl
    refine Classical.byContradiction fun hch => ?_
    have e1' : fs1 = (fs.createDirAllRev (p.base cwd) p.comps.dropLast.reverse).2 := by rw [e1]
    rw [e1'] at hch
    obtain ⟨-, q, c, hq, hc, he⟩ := createDirAllRev_changes _ _ _ hch
    rw [List.reverse_reverse, hdl] at hq
    exact hl ((hway _).mpr ⟨q, c, hq, hc, he⟩)
  have dirs1 : ∀ l, Way cwd w.path l → fs1 l = some .dir := by
    intro l hl
    obtain ⟨q, c, hq, hc, rfl⟩ := (hway _).mp hl
    exact hd1 q c hq hc
  have hwk : fs1.walk (p.base cwd) r = .ok (lex (p.base cwd) r) := by
    rcases walk_noFile (fs := fs1) (l := p.base cwd) (comps := r)
      (fun q c hq hc d hx => hf _ d ((hway _).mpr ⟨q, c, hq, hc, rfl⟩) (ha1.2 _ _ hx)) with ⟨-, h⟩ | ⟨h, -⟩
    · exact h
    · exact absurd hd1 h
  have hopen : fs1.openCreate cwd p = match fs (place cwd w.path) with
      | some .dir => .err .other
      | some (.file _) => .ok (place cwd w.path, fs1)
      | none => .ok (place cwd w.path, fs1.set (place cwd w.path) (.file [])) := by
    rw [FS.openCreate, hasNul_false.mpr h4, h3, if_neg (by simp), hdl, h1, List.getLast?_concat]
    simp only []
    rw [hwk]
    simp only [Res.bind_ok]
    rw [if_neg h2, ← hpl, same _ hw]
    cases fs (place cwd w.path) with
    | none => rfl
    | some n => cases n <;> rfl
  rw [hopen]
  have fin : ∀ (fs2 : FS), (∀ l, l ≠ place cwd w.path → fs2 l = fs1 l) →
      (∀ l, Way cwd w.path l → fs2 l = some .dir) ∧ (∀ l, ¬ Way cwd w.path l → l ≠ place cwd w.path → fs2 l = fs l) :=
    fun fs2 h => ⟨fun l hl => by rw [h l (fun e => hw (e ▸ hl)), dirs1 l hl], fun l hl hne => by rw [h l hne, same l hl]⟩
  have hsame := same _ hw
  cases hc : fs (place cwd w.path) with
  | none =>
    simp only [readFile, hc, Option.getD_none]
    obtain ⟨f1, f2⟩ := fin ((fs1.set (place cwd w.path) (.file [])).writeAt (place cwd w.path) w.start w.piece)
      (fun l hl => by simp [FS.writeAt, FS.set, hl])
    refine ⟨_, rfl, by simp [FS.writeAt, FS.set], f1, f2, ?_⟩
    rintro - ⟨c, h, -⟩
    cases h
  | some n =>
    cases n with
    | dir => exact absurd hc hd
    | file c =>
      rw [hc] at hsame
      simp only [readFile, hc, Option.getD_some]
      obtain ⟨f1, f2⟩ := fin (fs1.writeAt (place cwd w.path) w.start w.piece) (fun l hl => by simp [FS.writeAt, FS.set, hsame, hl])
      refine ⟨_, rfl, by simp [FS.writeAt, FS.set, hsame], f1, f2, ?_⟩
      rintro hall ⟨c', h, hsm⟩
      cases h
      funext l
      by_cases hl : l = place cwd w.path
      · subst hl
        simp [FS.writeAt, FS.set, hsame, hsm, hc]
      · by_cases hwl : Way cwd w.path l
        · rw [f1 l hwl, hall l hwl]
        · exact f2 l hwl hl

/-- A path can be served just if it is of the right form and nothing is in its way. -/
theorem writable_place {fs : FS} {cwd : Loc} {path : List Bytes} : Writable fs cwd (joinPath path) ↔ Servable path ∧ ¬ Way cwd path (place cwd path) ∧
    (∀ l c, Way cwd path l → fs l ≠ some (.file c)) ∧ fs (place cwd path) ≠ some .dir := by
  rw [joinPath_text]
  constructor
  · rintro ⟨r, name, h1, h2, h3, h4, h5, h6⟩
    refine ⟨⟨⟨r, name, h1, h2⟩, h3, h4⟩, fun hw => ?_, fun l c hw => ?_, h6⟩
    · obtain ⟨q, c, hq, hc, e⟩ := (way_prefix h1).mp hw
      exact (h5 q c hq hc).2 e.symm
    · obtain ⟨q, x, hq, hx, rfl⟩ := (way_prefix h1).mp hw
      exact (h5 q x hq hx).1 c
  · rintro ⟨⟨⟨r, name, h1, h2⟩, h3, h4⟩, h5, h6, h7⟩
    refine ⟨r, name, h1, h2, h3, h4, fun q c hq hc => ⟨fun d => h6 _ d ((way_prefix h1).mpr ⟨q, c, hq, hc, rfl⟩), fun e => h5 ?_⟩, h7⟩
    exact (way_prefix h1).mpr ⟨q, c, hq, hc, e.symm⟩

/-- Directories stay, and files stay and do not get shorter. -/
def Grows (fs fs' : FS) : Prop :=
  (∀ l, fs l = some .dir → fs' l = some .dir) ∧ ∀ l c, fs l = some (.file c) → ∃ c', fs' l = some (.file c') ∧ c.length ≤ c'.length

theorem grows_refl (fs : FS) : Grows fs fs := ⟨fun _ h => h, fun _ c h => ⟨c, h, Nat.le_refl _⟩⟩

theorem grows_trans {a b c : FS} (h1 : Grows a b) (h2 : Grows b c) : Grows a c :=
  ⟨fun l h => h2.1 l (h1.1 l h), fun l x h => by
    obtain ⟨y, hy, h3⟩ := h1.2 l x h
    obtain ⟨z, hz, h4⟩ := h2.2 l y hy
    exact ⟨z, hz, Nat.le_trans h3 h4⟩⟩

theorem pwrite_grows (c : Bytes) (s : Nat) (b : Bytes) : c.length ≤ (pwrite c s b).length := by
  unfold pwrite
  split
  · exact Nat.le_refl _
  · simp only [List.length_append, List.length_take, List.length_replicate, List.length_drop]
    omega

/-- What is known when a part has been written. -/
structure Wrote (cwd : Loc) (fs fs' : FS) (path : List Bytes) : Prop where
  servable : Servable path
  noFile : ∀ l c, Way cwd path l → fs l ≠ some (.file c)
  noDir : fs (place cwd path) ≠ some .dir
  file : ∃ c, fs' (place cwd path) = some (.file c)
  dirs : ∀ l, Way cwd path l → fs' l = some .dir

theorem wrote_of {ε : Type} {cwd : Loc} {fs fs' : FS} {w : FileWriter} (h : (w.writeToFilesystem cwd fs : Res ε Unit × FS) = (.ok (), fs')) :
    Wrote cwd fs fs' w.path ∧ Grows fs fs' := by
  obtain ⟨h1, h2, h3, h4⟩ := writable_place.mp (writeToFilesystem_ok_iff.mp (by rw [h]))
  obtain ⟨fs1, e, k1, k2, k3, -⟩ := writeToFilesystem_place (ε := ε) h1 h2 h3 h4
  rw [h] at e
  cases e
  refine ⟨⟨h1, h3, h4, ⟨_, k1⟩, k2⟩, fun l hl => ?_, fun l c hl => ?_⟩
  · by_cases hw : Way cwd w.path l
    · exact k2 l hw
    · rw [k3 l hw (fun e => h4 (e ▸ hl))]
      exact hl
  · by_cases hw : Way cwd w.path l
    · exact absurd hl (h3 l c hw)
    · by_cases he : l = place cwd w.path
      · subst he
        refine ⟨_, k1, ?_⟩
        rw [readFile, hl]
        exact pwrite_grows c _ _
      · exact ⟨c, by rw [k3 l hw he, hl], Nat.le_refl _⟩

theorem wrote_mono {cwd : Loc} {a b c e : FS} {path : List Bytes} (h1 : Grows a b) (h : Wrote cwd b c path) (h2 : Grows c e) : Wrote cwd a e path := by
  obtain ⟨x, hx⟩ := h.file
  obtain ⟨y, hy, -⟩ := h2.2 _ _ hx
  refine ⟨h.servable, fun l z hl hz => ?_, fun hd => h.noDir (h1.1 _ hd), ⟨y, hy⟩, fun l hl => h2.1 _ (h.dirs l hl)⟩
  obtain ⟨z', hz', -⟩ := h1.2 _ _ hz
  exact h.noFile l z' hl hz'

theorem wrote_all {ε : Type} {cwd : Loc} : ∀ (ws : List FileWriter) {fs fs' : FS}, (writeAllParts cwd fs ws : Res ε Unit × FS) = (.ok (), fs') →
    (∀ w ∈ ws, Wrote cwd fs fs' w.path) ∧ Grows fs fs'
  | [], fs, fs', h => by
    cases h
    exact ⟨by simp, grows_refl _⟩
  | w :: ws, fs, fs', h => by
    rw [writeAllParts] at h
    cases hw : (w.writeToFilesystem cwd fs : Res ε Unit × FS) with
    | mk r fs1 =>
      rw [hw] at h
      cases r with
      | ok u =>
        obtain ⟨w1, g1⟩ := wrote_of hw
        obtain ⟨w2, g2⟩ := wrote_all ws h
        refine ⟨fun x hx => ?_, grows_trans g1 g2⟩
        rcases List.mem_cons.mp hx with rfl | hx
        · exact wrote_mono (grows_refl _) w1 g2
        · exact wrote_mono g1 (w2 x hx) (grows_refl _)
      | err e => cases h
      | panic => cases h
      | hang => cases h

/-! ### Many writes -/

/-- The bytes of a part are on disk, in their place, with the directories for the path. -/
def Laid (fs : FS) (cwd : Loc) (files : List File) (p : Part) : Prop :=
  ∃ f c, files[p.file]? = some f ∧ fs (place cwd f.path) = some (.file c) ∧
    (∀ i, i < p.data.length → c[p.offset + i]? = p.data[i]?) ∧ ∀ l, Way cwd f.path l → fs l = some .dir

/-- What is on disk in the place of a file, beyond its listed length. -/
def restAt (fs : FS) (cwd : Loc) (f : File) : Bytes := ((readFile fs (place cwd f.path)).getD []).drop f.length

/-- A part with its bytes, of a file that is written to. -/
def Due (files : List File) (d : Bytes) (pl : Nat) (p : Part) : Prop := Right files d p ∧ ∃ f, Touched files pl p.file f

theorem step_place {ε : Type} {cwd : Loc} {files : List File} {d : Bytes} {pl : Nat} {fs : FS} {p : Part}
    (hO : Receptive cwd fs files pl) (hp : Due files d pl p) :
    ∃ fs', ((toWriter files p).writeToFilesystem cwd fs : Res ε Unit × FS) = (.ok (), fs') ∧
      Receptive cwd fs' files pl ∧ Laid fs' cwd files p ∧
      (Agreeing cwd files d → ∀ p', Due files d pl p' → Laid fs cwd files p' → Laid fs' cwd files p') ∧
      (∀ l, (∀ k f, Touched files pl k f → ¬ Way cwd f.path l ∧ l ≠ place cwd f.path) → fs' l = fs l) ∧
      (Laid fs cwd files p → fs' = fs) ∧
      (SameLength cwd files → ∀ g ∈ files, 0 < g.length → restAt fs' cwd g = restAt fs cwd g) := by
  obtain ⟨⟨f, hf, hle, hdata⟩, f', ht⟩ := hp
  have : f' = f := by have := ht.1; rw [hf] at this; exact (Option.some.inj this).symm
  subst this
  have hw : (toWriter files p).path = f'.path := by simp [toWriter, hf]
  obtain ⟨fs', e, h1, h2, h3, h4⟩ := writeToFilesystem_place (ε := ε) (cwd := cwd) (fs := fs) (w := toWriter files p)
    (by rw [hw]; exact hO.servable _ _ ht) (by rw [hw]; exact hO.ways _ _ _ _ ht ht) (by rw [hw]; exact hO.noFile _ _ ht) (by rw [hw]; exact hO.noDir _ _ ht)
  rw [hw] at h1 h2 h3 h4
  have hst : (toWriter files p).start = p.offset := rfl
  have hpc : (toWriter files p).piece = p.data := rfl
  rw [hst, hpc] at h1 h4
  have hother : ∀ j g, Touched files pl j g → place cwd g.path ≠ place cwd f'.path → fs' (place cwd g.path) = fs (place cwd g.path) :=
    fun j g hg hj => h3 _ (hO.ways _ _ _ _ hg ht) hj
  have hways : ∀ j g, Touched files pl j g → ∀ l, Way cwd g.path l → fs' l = some .dir ∨ fs' l = fs l := by
    intro j g hg l hl
    by_cases hin : Way cwd f'.path l
    · exact .inl (h2 l hin)
    · exact .inr (h3 l hin (fun e => hO.ways _ _ _ _ ht hg (e ▸ hl)))
  refine ⟨fs', e, ⟨hO.servable, hO.ways, ?_, ?_⟩, ?_, ?_, ?_, ?_, ?_⟩
  · intro j g hg l c hl hfile
    rcases hways j g hg l hl with h | h
    · rw [h] at hfile; cases hfile
    · rw [h] at hfile; exact hO.noFile j g hg l c hl hfile
  · intro j g hg
    by_cases hjp : place cwd g.path = place cwd f'.path
    · rw [hjp, h1]
      simp
    · rw [hother j g hg hjp]; exact hO.noDir j g hg
  · refine ⟨f', _, hf, h1, ?_, h2⟩
    intro i hi
    rw [pwrite_inside _ _ _ _ (by omega) (by omega)]
    congr 1
    omega
  · rintro hA p' ⟨⟨g, hg, hle', hdata'⟩, g', ht'⟩ ⟨g2, c, hg2, hc, hbytes, hdirs⟩
    have : g' = g := by have := ht'.1; rw [hg] at this; exact (Option.some.inj this).symm
    subst this
    rw [hg] at hg2
    cases hg2
    have hdirs' : ∀ l, Way cwd g'.path l → fs' l = some .dir := by
      intro l hl
      rcases hways _ _ ht' l hl with h | h
      · exact h
      · rw [h]; exact hdirs l hl
    by_cases hjp : place cwd g'.path = place cwd f'.path
    · refine ⟨g', _, hg, by rw [hjp]; exact h1, ?_, hdirs'⟩
      have hcc : (readFile fs (place cwd f'.path)).getD [] = c := by simp [readFile, ← hjp, hc]
      rw [hcc]
      intro i hi
      by_cases hin : p.offset ≤ p'.offset + i ∧ p'.offset + i < p.offset + p.data.length
      · have := hA p'.file p.file g' f' hg hf hjp (p'.offset + i) (by omega) (by omega)
        rw [pwrite_inside _ _ _ _ hin.1 hin.2, hdata (p'.offset + i - p.offset) (by omega), hdata' i hi,
          show fileStart files p'.file + p'.offset + i = fileStart files p'.file + (p'.offset + i) by omega, this]
        congr 1
        omega
      · have hci := hbytes i hi
        have : p'.offset + i < c.length := by
          rw [List.getElem?_eq_getElem hi] at hci
          exact (List.getElem?_eq_some_iff.mp hci).1
        rw [pwrite_outside _ _ _ _ this (by omega)]
        exact hci
    · refine ⟨g', c, hg, ?_, hbytes, hdirs'⟩
      rw [hother _ _ ht' hjp]; exact hc
  · intro l hl
    exact h3 l (hl _ _ ht).1 (hl _ _ ht).2
  · rintro ⟨g, c, hg, hc, hbytes, hdirs⟩
    rw [hf] at hg
    cases hg
    exact h4 hdirs ⟨c, hc, pwrite_same c _ _ hbytes⟩
  · intro hS g hg hpos
    obtain ⟨j, hj⟩ := List.getElem?_of_mem hg
    by_cases hjp : place cwd g.path = place cwd f'.path
    · have h5 : readFile fs' (place cwd f'.path) = some (pwrite ((readFile fs (place cwd f'.path)).getD []) p.offset p.data) := by rw [readFile, h1]
      rw [restAt, restAt, hjp, h5, Option.getD_some]
      by_cases hd : p.data = []
      · rw [hd, pwrite, if_pos rfl]
      · have : 0 < p.data.length := List.length_pos_iff.mpr hd
        have := hS g hg f' (List.mem_of_getElem? hf) hpos (by omega) hjp
        exact pwrite_beyond _ _ _ _ (by omega)
    · simp only [restAt, readFile, hother j g ⟨hj, .inl hpos⟩ hjp]

theorem write_place {ε : Type} {cwd : Loc} {files : List File} {d : Bytes} {pl : Nat} (ps : List Part) : ∀ {fs : FS},
    Receptive cwd fs files pl → (∀ p ∈ ps, Due files d pl p) →
    ∃ fs', (writeAllParts cwd fs (ps.map (toWriter files)) : Res ε Unit × FS) = (.ok (), fs') ∧
      Receptive cwd fs' files pl ∧ (Agreeing cwd files d → ∀ p ∈ ps, Laid fs' cwd files p) ∧
      (Agreeing cwd files d → ∀ p', Due files d pl p' → Laid fs cwd files p' → Laid fs' cwd files p') ∧
      (∀ l, (∀ k f, Touched files pl k f → ¬ Way cwd f.path l ∧ l ≠ place cwd f.path) → fs' l = fs l) ∧
      ((∀ p ∈ ps, Laid fs cwd files p) → fs' = fs) ∧
      (SameLength cwd files → ∀ g ∈ files, 0 < g.length → restAt fs' cwd g = restAt fs cwd g) := by
  induction ps with
  | nil => intro fs hr _; exact ⟨fs, rfl, hr, by simp, fun _ _ _ h => h, fun _ _ => rfl, fun _ => rfl, fun _ _ _ _ => rfl⟩
  | cons p ps ih =>
    intro fs hO hps
    obtain ⟨fs1, e1, r1, o1, k1, u1, s1, b1⟩ := step_place (ε := ε) hO (hps p (by simp))
    obtain ⟨fs2, e2, r2, o2, k2, u2, s2, b2⟩ := ih r1 (fun q hq => hps q (List.mem_cons_of_mem _ hq))
    refine ⟨fs2, ?_, r2, ?_, fun hA q hq ho => k2 hA q hq (k1 hA q hq ho), fun l hl => (u2 l hl).trans (u1 l hl), ?_,
      fun hS g hg hpos => (b2 hS g hg hpos).trans (b1 hS g hg hpos)⟩
    · rw [List.map_cons, writeAllParts, e1]
      exact e2
    · intro hA q hq
      rcases List.mem_cons.mp hq with rfl | hq
      · exact k2 hA q (hps q (by simp)) o1
      · exact o2 hA q hq
    · intro hall
      have h1 : fs1 = fs := s1 (hall p (by simp))
      rw [s2 (fun q hq => by rw [h1]; exact hall q (List.mem_cons_of_mem _ hq)), h1]

theorem due_parts {ε : Type} {m : Build} {files : List File} {d : Bytes} {pl i : Nat} {ps : List Part} (hlen : total files = d.length)
    (h : PieceParts ε m files d pl i ps) : ∀ p ∈ ps, Due files d pl p := by
  intro p hp
  have hr := h.right p hp
  obtain ⟨f, hf, -⟩ := hr
  refine ⟨h.right p hp, f, hf, ?_⟩
  obtain ⟨h1, h2, h3⟩ := h.only p hp f hf
  by_cases h0 : 0 < f.length
  · exact .inl h0
  · refine .inr ⟨fun hm => ?_, by omega⟩
    have h0 : f.length = 0 := by omega
    have := Nat.div_add_mod (fileStart files p.file) pl
    rw [hm, Nat.add_zero] at this
    rw [h0, Nat.add_zero, ← this, Nat.mul_comm i] at h1
    rw [← this, Nat.mul_comm _ pl] at h2
    have a1 := Nat.lt_of_mul_lt_mul_left h1
    have a2 := Nat.lt_of_mul_lt_mul_left h2
    omega

/-- A file that is written to has a part in some piece. -/
theorem touched_part {ε : Type} {m : Build} {files : List File} {d : Bytes} {pl : Nat} (hlen : total files = d.length) (h64 : d.length < 2 ^ 64) (hpl : 0 < pl)
    {k : Nat} {f : File} (ht : Touched files pl k f) :
    ∃ i, i < pieceCount d.length pl ∧ ∀ ps, PieceParts ε m files d pl i ps → ∃ p ∈ ps, p.file = k := by
  have htot := fileStart_total ht.1
  have hg : fileStart files k < d.length := by rcases ht.2 with h | h <;> omega
  refine ⟨fileStart files k / pl, lt_count hpl hg, fun ps hps => ?_⟩
  have hdm := Nat.div_add_mod (fileStart files k) pl
  rw [Nat.mul_comm] at hdm
  have hle := (pieceOf (g := fileStart files k) hpl).1
  exact hps.touches k f ht.1 (by rcases ht.2 with h | h <;> omega) (pieceOf hpl).2 hg

/-! ### Listed files under their places -/

theorem placed_get {cwd : Loc} {files : List File} {k : Nat} {f : File} (h : files[k]? = some f) :
    (placedFiles cwd files)[k]? = some ⟨place cwd f.path, f.length⟩ := by
  simp [placedFiles, h]

theorem placed_get' {cwd : Loc} {files : List File} {k : Nat} {g : File} (h : (placedFiles cwd files)[k]? = some g) :
    ∃ f, files[k]? = some f ∧ g = ⟨place cwd f.path, f.length⟩ := by
  simp only [placedFiles, List.getElem?_map, Option.map_eq_some_iff] at h
  obtain ⟨f, h1, h2⟩ := h
  exact ⟨f, h1, h2.symm⟩

theorem placed_start (cwd : Loc) (files : List File) (k : Nat) : fileStart (placedFiles cwd files) k = fileStart files k := by
  simp [fileStart, placedFiles, ← List.map_take, Function.comp_def]

theorem placed_total (cwd : Loc) (files : List File) : total (placedFiles cwd files) = total files := by
  simp [total, placedFiles, Function.comp_def]

theorem placed_right {cwd : Loc} {files : List File} {d : Bytes} {p : Part} (h : Right files d p) : Right (placedFiles cwd files) d p := by
  obtain ⟨f, h1, h2, h3⟩ := h
  refine ⟨_, placed_get h1, h2, ?_⟩
  rw [placed_start]
  exact h3

theorem laid_byte {fs : FS} {cwd : Loc} {files : List File} {d : Bytes} {p : Part} (hr : Right files d p)
    (ho : Laid fs cwd files p) {g : Nat} (h1 : fileStart files p.file + p.offset ≤ g)
    (h2 : g < fileStart files p.file + p.offset + p.data.length) : diskByte fs [] (placedFiles cwd files) g = d[g]? := by
  obtain ⟨f, hf, hle, hdata⟩ := hr
  obtain ⟨f', c, hf', hc, hbytes, -⟩ := ho
  rw [hf] at hf'
  cases hf'
  rw [diskByte_file (placed_get hf) (by rw [placed_start]; omega) (by rw [placed_start]; show g < _ + f.length; omega), placed_start]
  simp only [readFile, List.nil_append, hc, Option.bind_some]
  have := hbytes (g - fileStart files p.file - p.offset) (by omega)
  have e : p.offset + (g - fileStart files p.file - p.offset) = g - fileStart files p.file := by omega
  rw [e] at this
  rw [this, hdata _ (by omega)]
  congr 1
  omega

theorem laid_bytes {ε : Type} {m : Build} {cwd : Loc} {files : List File} {d : Bytes} {pl i : Nat} {ps : List Part} {fs : FS}
    (h : PieceParts ε m files d pl i ps) (ho : ∀ p ∈ ps, Laid fs cwd files p) {g : Nat}
    (h1 : i * pl ≤ g) (h2 : g < (i + 1) * pl) (h3 : g < d.length) : diskByte fs [] (placedFiles cwd files) g = d[g]? := by
  obtain ⟨p, hp, hp1, hp2⟩ := h.covers g h1 h2 h3
  exact laid_byte (h.right p hp) (ho p hp) hp1 hp2

/-- When all parts of all pieces are on disk, the files are right, up to what is beyond their listed length. -/
theorem files_rest {ε : Type} {m : Build} {cwd : Loc} {fs' : FS} {files : List File} {d : Bytes} {pl : Nat} (hlen : total files = d.length) (hpl : 0 < pl)
    (hall : ∀ i, i < pieceCount d.length pl → ∃ ps, PieceParts ε m files d pl i ps ∧ ∀ p ∈ ps, Laid fs' cwd files p) :
    ∀ k f, files[k]? = some f → 0 < f.length → readFile fs' (place cwd f.path) = some (fileContent files d k f ++ restAt fs' cwd f) := by
  intro k f hk hpos
  have htot := fileStart_total hk
  have byte : ∀ i, i < f.length → (readFile fs' (place cwd f.path)).bind (fun c => c[i]?) = d[fileStart files k + i]? := by
    intro i hi
    have hg : fileStart files k + i < d.length := by omega
    obtain ⟨ps, hps, hod⟩ := hall ((fileStart files k + i) / pl) (lt_count hpl hg)
    have := laid_bytes hps hod (pieceOf hpl).1 (pieceOf hpl).2 hg
    rw [diskByte_file (placed_get hk) (by rw [placed_start]; omega) (by rw [placed_start]; show _ < _ + f.length; omega), placed_start] at this
    rw [← this]
    simp only [List.nil_append]
    congr 2
    funext c
    congr 1
    omega
  have h0 := byte 0 hpos
  rw [List.getElem?_eq_getElem (l := d) (by omega)] at h0
  cases hc : readFile fs' (place cwd f.path) with
  | none => rw [hc] at h0; simp at h0
  | some c =>
    rw [restAt, hc, Option.getD_some]
    congr 1
    refine (List.take_append_drop f.length c).symm.trans ?_
    congr 1
    apply List.ext_getElem?
    intro i
    rw [fileContent, List.getElem?_take, List.getElem?_take]
    by_cases hi : i < f.length
    · have := byte i hi
      rw [hc] at this
      rw [if_pos hi, if_pos hi, List.getElem?_drop]
      exact this
    · rw [if_neg hi, if_neg hi]

theorem anywhere_pieces {ε : Type} {m : Build} {cwd : Loc} {files : List File} {d : Bytes} {pl : Nat} (hlen : total files = d.length) (h64 : d.length < 2 ^ 64)
    (hpl : 0 < pl) (order : List Nat) : ∀ {fs : FS}, Receptive cwd fs files pl → (∀ i ∈ order, i < pieceCount d.length pl) →
    ∃ fs', (writePieces m cwd files d pl fs order : Res ε Unit × FS) = (.ok (), fs') ∧ Receptive cwd fs' files pl ∧
      (Agreeing cwd files d → ∀ p, Due files d pl p → Laid fs cwd files p → Laid fs' cwd files p) ∧
      (Agreeing cwd files d → ∀ i ∈ order, ∃ ps, PieceParts ε m files d pl i ps ∧ ∀ p ∈ ps, Laid fs' cwd files p) ∧
      (∀ l, (∀ k f, Touched files pl k f → ¬ Way cwd f.path l ∧ l ≠ place cwd f.path) → fs' l = fs l) ∧
      (SameLength cwd files → ∀ g ∈ files, 0 < g.length → restAt fs' cwd g = restAt fs cwd g) := by
  induction order with
  | nil => intro fs hl _; exact ⟨fs, rfl, hl, fun _ _ _ h => h, by simp, fun _ _ => rfl, fun _ _ _ _ => rfl⟩
  | cons i is ih =>
    intro fs hl hi
    obtain ⟨ps, hps⟩ := pieceParts (ε := ε) (m := m) hlen h64 hpl (hi i (by simp))
    have hdue := due_parts hlen hps
    obtain ⟨fs1, e1, r1, o1, k1, u1, -, b1⟩ := write_place (ε := ε) ps hl hdue
    obtain ⟨fs2, e2, r2, k2, o2, u2, b2⟩ := ih r1 (fun j hj => hi j (List.mem_cons_of_mem _ hj))
    refine ⟨fs2, ?_, r2, fun hA p hp ho => k2 hA p hp (k1 hA p hp ho), ?_, fun l hl => (u2 l hl).trans (u1 l hl),
      fun hS f hf hpos => (b2 hS f hf hpos).trans (b1 hS f hf hpos)⟩
    · rw [writePieces, writePiece, hps.writers]
      simp only []
      rw [e1]
      exact e2
    · intro hA j hj
      rcases List.mem_cons.mp hj with rfl | hj
      · exact ⟨ps, hps, fun p hp => k2 hA p (hdue p hp) (o1 hA p hp)⟩
      · exact o2 hA j hj

theorem wrote_pieces {ε : Type} {m : Build} {cwd : Loc} {files : List File} {d : Bytes} {pl : Nat} : ∀ (order : List Nat) {fs fs' : FS},
    (writePieces m cwd files d pl fs order : Res ε Unit × FS) = (.ok (), fs') →
    (∀ i ∈ order, ∀ ps, PieceParts ε m files d pl i ps → ∀ p ∈ ps, Wrote cwd fs fs' (toWriter files p).path) ∧ Grows fs fs'
  | [], fs, fs', h => by
    cases h
    exact ⟨by simp, grows_refl _⟩
  | i :: is, fs, fs', h => by
    rw [writePieces] at h
    cases hw : (writePiece m cwd fs (piece d pl i) i files pl : Res ε Unit × FS) with
    | mk r fs1 =>
      rw [hw] at h
      cases r with
      | ok u =>
        obtain ⟨w2, g2⟩ := wrote_pieces is h
        have g1 : Grows fs fs1 := by
          unfold writePiece at hw
          cases hg : (getFileWriters m files (piece d pl i) i pl : Res ε _) with
          | ok ws => rw [hg] at hw; exact (wrote_all ws hw).2
          | _ => rw [hg] at hw; cases hw
        refine ⟨fun j hj ps hps p hp => ?_, grows_trans g1 g2⟩
        rcases List.mem_cons.mp hj with rfl | hj
        · rw [writePiece, hps.writers] at hw
          exact wrote_mono (grows_refl _) ((wrote_all _ hw).1 _ (List.mem_map_of_mem hp)) g2
        · exact wrote_mono g1 (w2 j hj ps hps p hp) (grows_refl _)
      | err e => cases h
      | panic => cases h
      | hang => cases h

theorem rest_over {cwd : Loc} {files : List File} {d : Bytes} {fs0 fs : FS} (h : ∀ k f, files[k]? = some f → 0 < f.length →
      readFile fs (place cwd f.path) = some (fileContent files d k f ++ restAt fs0 cwd f)) : FilesOver fs0 fs [] (placedFiles cwd files) d := by
  intro k g hg hpos
  obtain ⟨f, hf, rfl⟩ := placed_get' hg
  have := h k f hf hpos
  rw [List.nil_append, this, fileContent, fileContent, placed_start]
  rfl

end RustBit
