import Verif.Model.Process
import Verif.Spec.Process
import Verif.Props.EndToEnd
import Verif.Props.Magnet

/-
What the writers of several torrents do to each other's files.
-/

namespace RustBit
open Spec

/-! ### What a writer can change, for paths without `..` -/

theorem walk_loc {fs : FS} {comps : List Bytes} (h : b!".." ∉ comps) : ∀ {l l' : Loc}, fs.walk l comps = .ok l' → l' = l ++ comps := by
  induction comps with
  | nil => intro l l' e; simp only [FS.walk, Res.ok.injEq] at e; rw [e, List.append_nil]
  | cons c cs ih =>
    intro l l' e
    simp only [List.mem_cons, not_or] at h
    rw [FS.walk, if_neg (fun x => h.1 x.symm)] at e
    split at e
    · rw [ih h.2 e, List.append_assoc]; rfl
    · simp at e
    · simp at e

/-- Only directories on the way to `base ++ comps` are made. -/
def MadeDirs (base : Loc) (comps : List Bytes) (fs fs' : FS) : Prop :=
  ∀ l, fs' l ≠ fs l → fs' l = some .dir ∧ ∃ q, q ≠ [] ∧ q <+: comps ∧ l = base ++ q

theorem madeDirs_refl (base : Loc) (comps : List Bytes) (fs : FS) : MadeDirs base comps fs fs := fun _ h => absurd rfl h

theorem madeDirs_trans {base : Loc} {comps : List Bytes} {a b c : FS} (h1 : MadeDirs base comps a b) (h2 : MadeDirs base comps b c) :
    MadeDirs base comps a c := by
  intro l hl
  by_cases h : c l = b l
  · have := h1 l (by rw [← h]; exact hl)
    rw [h]; exact this
  · exact h2 l h

theorem madeDirs_mono {base : Loc} {a b : List Bytes} {fs fs' : FS} (hab : a <+: b) (h : MadeDirs base a fs fs') : MadeDirs base b fs fs' := by
  intro l hl
  obtain ⟨h1, q, h2, h3, h4⟩ := h l hl
  exact ⟨h1, q, h2, h3.trans hab, h4⟩

theorem mkdir_made {fs fs' : FS} {base : Loc} {comps : List Bytes} (h : b!".." ∉ comps) (e : fs.mkdir base comps = .ok fs') :
    MadeDirs base comps fs fs' := by
  unfold FS.mkdir at e
  split at e
  · simp at e
  · split at e
    · simp at e
    · rename_i name hn
      cases hw : fs.walk base comps.dropLast with
      | ok l =>
        rw [hw] at e
        simp only [Res.bind_ok] at e
        split at e
        · simp at e
        · split at e
          · simp at e
          · simp only [Res.ok.injEq] at e
            have hl := walk_loc (fun x => h (List.dropLast_subset _ x)) hw
            have hne : comps ≠ [] := by intro e; rw [e] at hn; simp at hn
            have hc : comps.dropLast ++ [name] = comps := by
              rw [List.getLast?_eq_some_getLast hne] at hn
              rw [← Option.some.inj hn]
              exact List.dropLast_concat_getLast hne
            rw [hl, List.append_assoc, hc] at e
            rw [← e]
            intro x hx
            simp only [FS.set] at hx ⊢
            split at hx
            · rename_i ex
              rw [if_pos ex]
              exact ⟨rfl, comps, hne, List.prefix_refl _, ex⟩
            · exact absurd rfl hx
      | err x => rw [hw] at e; simp at e
      | panic => rw [hw] at e; simp at e
      | hang => rw [hw] at e; simp at e

theorem createDirAllRev_made {base : Loc} {rev : List Bytes} (h : b!".." ∉ rev) (fs : FS) :
    MadeDirs base rev.reverse fs (fs.createDirAllRev base rev).2 := by
  induction rev with
  | nil => exact madeDirs_refl _ _ _
  | cons c rest ih =>
    have h' : b!".." ∉ rest := fun x => h (List.mem_cons_of_mem _ x)
    have hr : b!".." ∉ (c :: rest).reverse := fun x => h (List.mem_reverse.mp x)
    have hpre : rest.reverse <+: (c :: rest).reverse := by rw [List.reverse_cons]; exact List.prefix_append _ _
    rw [FS.createDirAllRev]
    cases hm : fs.mkdir base (c :: rest).reverse with
    | ok fs1 => exact mkdir_made hr hm
    | err e =>
      cases e with
      | notFound =>
        simp only []
        have hi := madeDirs_mono hpre (ih h')
        generalize fs.createDirAllRev base rest = r at hi
        obtain ⟨r1, fs1⟩ := r
        cases r1 with
        | ok u =>
          simp only []
          cases hm2 : fs1.mkdir base (c :: rest).reverse with
          | ok fs2 => exact madeDirs_trans hi (mkdir_made hr hm2)
          | err e => simp only []; split <;> exact hi
          | panic => simp only []; split <;> exact hi
          | hang => simp only []; split <;> exact hi
        | err e => exact hi
        | panic => exact hi
        | hang => exact hi
      | other => simp only []; split <;> exact madeDirs_refl _ _ _
    | panic => simp only []; split <;> exact madeDirs_refl _ _ _
    | hang => simp only []; split <;> exact madeDirs_refl _ _ _

theorem createDirAll_made {base : Loc} {comps : List Bytes} (h : b!".." ∉ comps) (fs : FS) : MadeDirs base comps fs (fs.createDirAll base comps).2 := by
  have := createDirAllRev_made (base := base) (rev := comps.reverse) (by simpa using h) fs
  rw [List.reverse_reverse] at this
  exact this

theorem openCreate_loc {fs fs' : FS} {cwd l : Loc} {p : PathBuf} (ha : p.absolute = false) (h : b!".." ∉ p.comps)
    (e : fs.openCreate cwd p = .ok (l, fs')) : l = cwd ++ p.comps ∧ ∀ x, x ≠ l → fs' x = fs x := by
  unfold FS.openCreate at e
  simp only [PathBuf.base, ha, Bool.false_eq_true, if_false] at e
  split at e
  · simp at e
  · split at e
    · simp at e
    · rename_i name hn
      cases hw : fs.walk cwd p.comps.dropLast with
      | ok l1 =>
        rw [hw] at e
        simp only [Res.bind_ok] at e
        have hl := walk_loc (fun x => h (List.dropLast_subset _ x)) hw
        have hne : p.comps ≠ [] := by intro e; rw [e] at hn; simp at hn
        have hc : p.comps.dropLast ++ [name] = p.comps := by
          rw [List.getLast?_eq_some_getLast hne] at hn
          rw [← Option.some.inj hn]
          exact List.dropLast_concat_getLast hne
        have hloc : l1 ++ [name] = cwd ++ p.comps := by rw [hl, List.append_assoc, hc]
        rw [hloc] at e
        split at e
        · simp at e
        · split at e
          · simp at e
          · simp only [Res.ok.injEq, Prod.mk.injEq] at e
            rw [← e.1, ← e.2]
            exact ⟨rfl, fun _ _ => rfl⟩
          · simp only [Res.ok.injEq, Prod.mk.injEq] at e
            rw [← e.1, ← e.2]
            exact ⟨rfl, fun x hx => by simp [FS.set, hx]⟩
      | err x => rw [hw] at e; simp at e
      | panic => rw [hw] at e; simp at e
      | hang => rw [hw] at e; simp at e

theorem writeAt_other (fs : FS) {l x : Loc} (a : Nat) (b : Bytes) (h : x ≠ l) : fs.writeAt l a b x = fs x := by
  unfold FS.writeAt
  cases fs l with
  | none => rfl
  | some n => cases n with
    | dir => rfl
    | file c => simp only [FS.set]; rw [if_neg h]

/-- What writing a part can change. -/
theorem writeToFilesystem_touch {ε : Type} {cwd : Loc} {fs : FS} {x : FileWriter} (h : Inward (joinPath x.path)) :
    ∀ l, (x.writeToFilesystem cwd fs : Res ε Unit × FS).2 l ≠ fs l →
      ((x.writeToFilesystem cwd fs : Res ε Unit × FS).2 l = some .dir ∧
        ∃ q, q ≠ [] ∧ q <+: names (joinPath x.path) ∧ q ≠ names (joinPath x.path) ∧ l = cwd ++ q) ∨
      l = cwd ++ names (joinPath x.path) := by
  have ha : (PathBuf.parse (joinPath x.path)).absolute = false := by
    simpa [PathBuf.parse] using h.1
  have hc : b!".." ∉ (PathBuf.parse (joinPath x.path)).comps := by
    simp only [PathBuf.parse]
    intro y
    exact h.2 (List.mem_filter.mp y).1
  have hn : (PathBuf.parse (joinPath x.path)).comps = names (joinPath x.path) := rfl
  rw [← hn]
  unfold FileWriter.writeToFilesystem
  simp only []
  generalize PathBuf.parse (joinPath x.path) = p at ha hc
  by_cases hp : p.comps = []
  · rw [if_pos hp]; exact fun l hl => absurd rfl hl
  rw [if_neg hp]
  have hb : p.base cwd = cwd := by simp [PathBuf.base, ha]
  rw [hb]
  have hcd := createDirAll_made (base := cwd) (comps := p.comps.dropLast) (fun y => hc (List.dropLast_subset _ y)) fs
  generalize fs.createDirAll cwd p.comps.dropLast = r at hcd
  obtain ⟨r1, fs1⟩ := r
  have hdir : ∀ l, fs1 l ≠ fs l → fs1 l = some .dir ∧ ∃ q, q ≠ [] ∧ q <+: p.comps ∧ q ≠ p.comps ∧ l = cwd ++ q := by
    intro l hl
    obtain ⟨h1, q, h2, h3, h4⟩ := hcd l hl
    exact ⟨h1, q, h2, (dropLast_prefix_ne hp h3).1, (dropLast_prefix_ne hp h3).2, h4⟩
  cases r1 with
  | ok u =>
    simp only []
    cases ho : fs1.openCreate cwd p with
    | ok y =>
      obtain ⟨l0, fs2⟩ := y
      obtain ⟨h1, h2⟩ := openCreate_loc ha hc ho
      simp only []
      intro l hl
      by_cases hll : l = l0
      · exact .inr (by rw [hll, h1])
      · have : (fs2.writeAt l0 x.start x.piece) l = fs1 l := by
          rw [writeAt_other _ _ _ hll, h2 l hll]
        rw [this] at hl ⊢
        exact .inl (hdir l hl)
    | err e => exact fun l hl => .inl (hdir l hl)
    | panic => exact fun l hl => .inl (hdir l hl)
    | hang => exact fun l hl => .inl (hdir l hl)
  | err e => exact fun l hl => .inl (hdir l hl)
  | panic => exact fun l hl => .inl (hdir l hl)
  | hang => exact fun l hl => .inl (hdir l hl)

/-! ### What is kept -/

/-- The files keep their places, what is right on disk stays, and so does what is beyond the listed lengths. -/
def Keeps (cwd : Loc) (files : List File) (d : Bytes) (fs fs' : FS) : Prop :=
  Clear fs cwd files → Clear fs' cwd files ∧ (∀ p, Right files d p → OnDisk fs cwd files p → OnDisk fs' cwd files p) ∧
    ∀ g ∈ files, beyond fs' cwd g = beyond fs cwd g

theorem keeps_refl (cwd : Loc) (files : List File) (d : Bytes) (fs : FS) : Keeps cwd files d fs fs := fun h => ⟨h, fun _ _ h => h, fun _ _ => rfl⟩

theorem keeps_trans {cwd : Loc} {files : List File} {d : Bytes} {a b c : FS} (h1 : Keeps cwd files d a b) (h2 : Keeps cwd files d b c) :
    Keeps cwd files d a c := by
  intro h
  obtain ⟨r1, k1, b1⟩ := h1 h
  obtain ⟨r2, k2, b2⟩ := h2 r1
  exact ⟨r2, fun p hp ho => k2 p hp (k1 p hp ho), fun g hg => (b2 g hg).trans (b1 g hg)⟩

/-- A change is harmless if on the way to the files at most directories appear. -/
theorem keeps_of_harmless {cwd : Loc} {files : List File} {d : Bytes} {fs fs' : FS}
    (h : ∀ f ∈ files, ∀ q, q ≠ [] → q <+: f.path → fs' (cwd ++ q) = fs (cwd ++ q) ∨ (q ≠ f.path ∧ fs' (cwd ++ q) = some .dir))
    (hplain : ∀ f ∈ files, Plain f.path) : Keeps cwd files d fs fs' := by
  have self : ∀ f ∈ files, fs' (cwd ++ f.path) = fs (cwd ++ f.path) := by
    intro f hf
    rcases h f hf f.path (hplain f hf).1 (List.prefix_refl _) with e | ⟨e, -⟩
    · exact e
    · exact absurd rfl e
  intro hroom
  refine ⟨?_, ?_, fun g hg => by rw [beyond, beyond, readFile, readFile, self g hg]⟩
  · intro f hf
    obtain ⟨h1, h2⟩ := hroom f hf
    refine ⟨?_, ?_⟩
    · intro q c hq hne hnil
      rcases h f hf q hnil hq with e | ⟨-, e⟩
      · rw [e]; exact h1 q c hq hne hnil
      · rw [e]; simp
    · rw [self f hf]; exact h2
  · rintro p - ⟨f, c, hf, hc, hb, hdirs⟩
    have hm := List.mem_of_getElem? hf
    refine ⟨f, c, hf, by rw [self f hm]; exact hc, hb, ?_⟩
    intro q hnil hq hne
    rcases h f hm q hnil hq with e | ⟨-, e⟩
    · rw [e]; exact hdirs q hnil hq hne
    · exact e

/-- Changes below `downloads`. -/
theorem keeps_below {cwd : Loc} {files : List File} {d : Bytes} {fs fs' : FS} (hplain : ∀ f ∈ files, Plain f.path)
    (hdl : ∀ f ∈ files, f.path.head? ≠ some b!"downloads") (hb : OnlyBelow (cwd ++ [b!"downloads"]) fs fs') : Keeps cwd files d fs fs' := by
  refine keeps_of_harmless ?_ hplain
  intro f hf q _ hq
  refine .inl (Classical.byContradiction fun hne => ?_)
  have := hb _ hne
  rw [List.prefix_append_right_inj] at this
  obtain ⟨r, hr⟩ := this.trans hq
  apply hdl f hf
  rw [← hr]
  rfl

/-- Another torrent writes a part elsewhere, whatever comes of it. -/
theorem keeps_apart {ε : Type} {cwd : Loc} {files : List File} {d : Bytes} {fs : FS} {x : FileWriter} (hplain : ∀ f ∈ files, Plain f.path)
    (h : Apart files x.path) : Keeps cwd files d fs (x.writeToFilesystem cwd fs : Res ε Unit × FS).2 := by
  refine keeps_of_harmless ?_ hplain
  intro f hf q hnil hq
  refine Classical.byContradiction fun hcon => ?_
  rw [not_or] at hcon
  obtain ⟨a1, a2⟩ := h.2 f hf
  rcases writeToFilesystem_touch (ε := ε) h.1 _ hcon.1 with ⟨hdir, q', -, hq', hne', e⟩ | e
  · have eq : q = q' := List.append_cancel_left e
    apply hcon.2
    refine ⟨?_, hdir⟩
    intro eq2
    rw [← eq, eq2] at hq'
    exact a2 hq'
  · have eq : q = names (joinPath x.path) := List.append_cancel_left e
    rw [eq] at hq
    exact a1 hq

/-- Making directories on the way to a path apart from the files. -/
theorem keeps_apart_dirs {cwd : Loc} {files : List File} {d : Bytes} {fs : FS} {x : FileWriter} (hplain : ∀ f ∈ files, Plain f.path)
    (h : Apart files x.path) {k : Nat} :
    Keeps cwd files d fs (fs.createDirAll ((PathBuf.parse (joinPath x.path)).base cwd) ((PathBuf.parse (joinPath x.path)).comps.take k)).2 := by
  have ha : (PathBuf.parse (joinPath x.path)).absolute = false := by
    simpa [PathBuf.parse] using h.1.1
  have hb : (PathBuf.parse (joinPath x.path)).base cwd = cwd := by simp [PathBuf.base, ha]
  have hn : (PathBuf.parse (joinPath x.path)).comps = names (joinPath x.path) := rfl
  rw [hb, hn]
  have hc : b!".." ∉ (names (joinPath x.path)).take k := by
    intro y
    exact h.1.2 (List.mem_filter.mp (List.mem_of_mem_take y)).1
  refine keeps_of_harmless ?_ hplain
  intro f hf q hnil hq
  refine Classical.byContradiction fun hcon => ?_
  rw [not_or] at hcon
  obtain ⟨hdir, q', -, hq', e⟩ := createDirAll_made hc fs _ hcon.1
  have eq : q = q' := List.append_cancel_left e
  apply hcon.2
  refine ⟨?_, hdir⟩
  intro eq2
  rw [← eq, eq2] at hq'
  exact (h.2 f hf).2 (hq'.trans (List.take_prefix _ _))

/-- Stopping while a part is written elsewhere. -/
theorem keeps_apart_torn {cwd : Loc} {files : List File} {d : Bytes} {fs fs' : FS} {x : FileWriter} (hplain : ∀ f ∈ files, Plain f.path)
    (h : Apart files x.path) (ht : TornPart cwd fs x fs') : Keeps cwd files d fs fs' := by
  cases ht with
  | dirs k hk => exact keeps_apart_dirs hplain h
  | data n => exact keeps_apart (x := { x with piece := x.piece.take n }) hplain h

/-- Stopping while a part of the torrent itself is written. -/
theorem keeps_own_torn {cwd : Loc} {files : List File} {d : Bytes} {fs fs' : FS} {p : Part} (hplain : ∀ f ∈ files, Plain f.path)
    (hsep : Separate files) (hp : Right files d p) (ht : TornPart cwd fs (toWriter files p) fs') : Keeps cwd files d fs fs' := by
  cases ht with
  | data n =>
    intro hroom
    obtain ⟨fs', e, r, -, k, -, -, -, b⟩ := step_clear (ε := Unit) hplain hsep hroom (right_take hp n)
    have e' : (FileWriter.writeToFilesystem (ε := Unit) cwd fs { toWriter files p with piece := (toWriter files p).piece.take n }) = (.ok (), fs') := by
      rw [← e]; rfl
    rw [e']
    exact ⟨r, k, b⟩
  | dirs k hk =>
    obtain ⟨f, hf, -, -⟩ := hp
    have hmem : f ∈ files := List.mem_of_getElem? hf
    have hw : (toWriter files p).path = f.path := by simp [toWriter, hf]
    rw [hw, parse_plain _ (hplain f hmem)] at hk ⊢
    simp only [PathBuf.base, Bool.false_eq_true, if_false] at hk ⊢
    refine keeps_of_harmless ?_ hplain
    intro g hg q hnil hq
    refine Classical.byContradiction fun hcon => ?_
    rw [not_or] at hcon
    have hdd : b!".." ∉ f.path.take k := fun y => ((hplain f hmem).2 _ (List.mem_of_mem_take y)).2.2.1 rfl
    obtain ⟨hdir, q', -, hq', e⟩ := createDirAll_made hdd fs _ hcon.1
    have eq : q = q' := List.append_cancel_left e
    apply hcon.2
    refine ⟨?_, hdir⟩
    intro eq2
    rw [← eq, eq2] at hq'
    have hpre := hq'.trans (List.take_prefix k f.path)
    obtain ⟨j, hj⟩ := List.getElem?_of_mem hg
    have := hsep j p.file g f hj hf hpre
    rw [this, hf] at hj
    cases hj
    have := hq'.length_le
    rw [List.length_take] at this
    omega

/-! ### The invariant -/

/-- A torrent with the metadata `info`: its writer is alive; the pieces it has taken are those published, and on disk; so are the parts it has
written of the piece it is busy with. -/
structure Own (w : World) (info : Info) (d : Bytes) (fs : FS) (s : Slot) : Prop where
  up : s.sys.writerUp = true
  written : ∀ r ∈ s.sys.written, r.piece = piece d info.pieceLength r.idx ∧
    ∃ ps, PieceParts Unit w.build (listedFiles info) d info.pieceLength r.idx ps ∧ ∀ p ∈ ps, OnDisk fs w.cwd (listedFiles info) p
  busy : ∀ ws, s.parts = some ws → ∃ r rest pre post, s.sys.ready = r :: rest ∧ r.piece = piece d info.pieceLength r.idx ∧
    PieceParts Unit w.build (listedFiles info) d info.pieceLength r.idx (pre ++ post) ∧ ws = post.map (toWriter (listedFiles info)) ∧
    ∀ p ∈ pre, OnDisk fs w.cwd (listedFiles info) p

/-- A torrent of the process, seen from the torrent with the metadata `info`. -/
def SlotOk (w : World) (info : Info) (d : Bytes) (fs : FS) (s : Slot) : Prop :=
  (Fresh s.sys ∧ 2 < s.sys.torrent.infoHash.length ∧ s.sys.writerUp = true ∧ s.parts = none) ∨
  ∃ info' n, Known w info' n s.sys ∧ Beside info info' ∧
    (∀ ws, s.parts = some ws → ∀ x ∈ ws, ∃ f ∈ listedFiles info', f.path = x.path) ∧ (info' = info → Own w info d fs s)

/-- A writer of a torrent with the metadata `info` has begun to write a piece that has the right hash and is not the published one. -/
def ForgedP (w : World) (info : Info) (d : Bytes) (P : Proc) : Prop :=
  ∃ r, (info, r) ∈ P.taken ∧ r.idx < pieceCount d.length info.pieceLength ∧ Collision w.sha r.piece (piece d info.pieceLength r.idx)

theorem own_keeps {w : World} {info : Info} {d : Bytes} {fs fs' : FS} {s : Slot} (hr : Clear fs w.cwd (listedFiles info))
    (hk : Keeps w.cwd (listedFiles info) d fs fs') (h : Own w info d fs s) : Own w info d fs' s := by
  refine ⟨h.up, ?_, ?_⟩
  · intro r hr'
    obtain ⟨h1, ps, h2, h3⟩ := h.written r hr'
    exact ⟨h1, ps, h2, fun p hp => (hk hr).2.1 p (h2.right p hp) (h3 p hp)⟩
  · intro ws hws
    obtain ⟨r, rest, pre, post, h1, h2, h3, h4, h5⟩ := h.busy ws hws
    exact ⟨r, rest, pre, post, h1, h2, h3, h4, fun p hp => (hk hr).2.1 p (h3.right p (List.mem_append_left _ hp)) (h5 p hp)⟩

theorem slotOk_keeps {w : World} {info : Info} {d : Bytes} {fs fs' : FS} {s : Slot} (hr : Clear fs w.cwd (listedFiles info))
    (hk : Keeps w.cwd (listedFiles info) d fs fs') (h : SlotOk w info d fs s) : SlotOk w info d fs' s := by
  rcases h with h | ⟨info', n, h1, h2, h3, h4⟩
  · exact .inl h
  · exact .inr ⟨info', n, h1, h2, h3, fun e => own_keeps hr hk (h4 e)⟩

/-- Steps other than the writer's change the disk only below `downloads`. -/
theorem act_keeps {w : World} {info : Info} {d : Bytes} {fs : FS} {s : Slot} {t : Sys} (hplain : ∀ f ∈ listedFiles info, Plain f.path)
    (hdl : ∀ f ∈ listedFiles info, f.path.head? ≠ some b!"downloads")
    (h : SlotOk w info d fs s) (hst : Step w { s.sys with fs := fs } t) (hw : t.written = s.sys.written) :
    Keeps w.cwd (listedFiles info) d fs t.fs := by
  cases hst with
  | collect p rest hd hm hi tcp f peerId room collected fs' hnh hc =>
    have hlen : 2 < s.sys.torrent.infoHash.length := by
      rcases h with h | ⟨info', n, hk, -⟩
      · exact h.2.1
      · have := hk.hasInfo
        rw [hi] at this
        cases this
    have := collectInfo_below (ε := Unit) w.build w.cwd fs (dialOf p.endpoint tcp) f peerId hlen room
    rw [hc] at this
    exact keeps_below hplain hdl this
  | write r ready hu hr res fs' hwr =>
    have := congrArg List.length hw
    simp at this
  | announce => exact keeps_refl _ _ _ _
  | take => exact keeps_refl _ _ _ _
  | finishOk => exact keeps_refl _ _ _ _
  | finishErr => exact keeps_refl _ _ _ _
  | finishPanic => exact keeps_refl _ _ _ _
  | success => exact keeps_refl _ _ _ _
  | failed => exact keeps_refl _ _ _ _
  | found => exact keeps_refl _ _ _ _

theorem requestNext_infoHash (t : Torrent) (info : Info) (e : Bytes) (pool : PiecePool) : (t.requestNext info e pool).1.infoHash = t.infoHash := by
  cases pool <;> rfl

theorem onSuccess_infoHash (t : Torrent) (e p : Bytes) (i : Nat) : (t.onSuccess e p i).torrent.infoHash = t.infoHash := by
  rw [Torrent.onSuccess.eq_def]
  cases t.info with
  | none => rfl
  | some info =>
    simp only []
    cases info.getFiles with
    | ok files =>
      simp only []
      cases hp : t.pool with
      | none => rfl
      | some pool => cases pool <;> rfl
    | err _ => rfl
    | panic => rfl
    | hang => rfl

theorem onFailed_infoHash (t : Torrent) (l : List TPeer) (e : Bytes) (i : Nat) : (t.onFailed l e i).torrent.infoHash = t.infoHash := by
  rw [Torrent.onFailed.eq_def]
  cases t.pool with
  | none => rfl
  | some pool =>
    simp only []
    cases (TPeer.findSuitablePeer l : Res Unit Bytes) with
    | ok next =>
      simp only []
      cases ht : t.info with
      | none => rfl
      | some info =>
        simp only []
        rw [← requestNext_infoHash t info next (pool.insert i)]
        cases pool <;> rfl
    | err _ => rfl
    | panic => rfl
    | hang => rfl

theorem onReady_infoHash (t : Torrent) (info : Info) (sh : List (List TPeer)) : (t.onReady info sh).torrent.infoHash = t.infoHash := by
  rw [Torrent.onReady.eq_def]
  split
  · cases t.pool <;> rfl
  · rfl

/-- What steps other than the writer's leave alone. -/
theorem act_writer {w : World} {s t : Sys} (hst : Step w s t) (hw : t.written = s.written) :
    t.writerUp = s.writerUp ∧ t.torrent.infoHash = s.torrent.infoHash ∧ ∃ more, t.ready = s.ready ++ more := by
  have self : s.ready = s.ready ++ [] := by simp
  cases hst with
  | write r ready hu hr res fs' hwr =>
    have := congrArg List.length hw
    simp at this
  | collect p rest hd hm hi tcp f peerId room collected fs' hnh hc =>
    exact ⟨rfl, onCollected_infoHash _ _ _, _, rfl⟩
  | announce => exact ⟨rfl, rfl, _, self⟩
  | take => exact ⟨rfl, rfl, _, self⟩
  | finishOk => exact ⟨rfl, rfl, _, self⟩
  | finishErr => exact ⟨rfl, rfl, _, self⟩
  | finishPanic => exact ⟨rfl, rfl, _, self⟩
  | success endpoint piece idx rest hd hm => exact ⟨rfl, onSuccess_infoHash _ _ _ _, _, rfl⟩
  | failed endpoint idx rest hd hm shuffled hs => exact ⟨rfl, onFailed_infoHash _ _ _ _, _, rfl⟩
  | found p rest hd hm info hi shuffles hn hs => exact ⟨rfl, onReady_infoHash _ _ _, _, rfl⟩

theorem logPath_comps : logPath.comps = [b!"test.log"] := by decide +kernel

theorem logPath_absolute : logPath.absolute = false := by decide +kernel

theorem createLog_only {cwd : Loc} {fs fs' : FS} (h : createLog cwd fs = .ok fs') : ∀ x, x ≠ cwd ++ logPath.comps → fs' x = fs x := by
  unfold createLog at h
  cases ho : fs.openCreate cwd logPath with
  | ok y =>
    obtain ⟨l, fs1⟩ := y
    rw [ho] at h
    simp only [Res.ok.injEq] at h
    obtain ⟨h1, h2⟩ := openCreate_loc logPath_absolute (by rw [logPath_comps]; decide) ho
    intro x hx
    rw [← h]
    simp only [FS.set]
    rw [if_neg (by rw [h1]; exact hx), h2 x (by rw [h1]; exact hx)]
  | err _ => rw [ho] at h; cases h
  | panic => rw [ho] at h; cases h
  | hang => rw [ho] at h; cases h

/-- The log file. -/
theorem keeps_log {cwd : Loc} {info : Info} {d : Bytes} {fs fs' : FS} (hplain : ∀ f ∈ listedFiles info, Plain f.path) (hres : Unreserved info)
    (h : ∀ x, x ≠ cwd ++ logPath.comps → fs' x = fs x) : Keeps cwd (listedFiles info) d fs fs' := by
  refine keeps_of_harmless ?_ hplain
  intro f hf q _ hq
  refine .inl (h _ ?_)
  rw [logPath_comps]
  intro e
  rw [List.append_cancel_left e] at hq
  obtain ⟨r, hr⟩ := hq
  apply (hres f hf).2
  rw [← hr]
  rfl

/-- A torrent is started with a hash of 20 or 32 bytes. -/
theorem addMagnet_length {m : Build} {body infoHash : Bytes} (h : addMagnet m body = (.ok, some infoHash)) :
    infoHash.length = 20 ∨ infoHash.length = 32 := by
  unfold addMagnet at h
  split at h
  · cases h
  · split at h
    · cases h
    · cases hp : Magnet.parseMagnet m body with
      | ok x =>
        rw [hp] at h
        simp only [Prod.mk.injEq, Option.some.injEq, true_and] at h
        subst h
        obtain ⟨h1, h2⟩ := C19_hash_length_partial m body x hp
        by_cases e : body[60]? = some c!"&"
        · exact .inl (h1 e)
        · exact .inr (h2 e)
      | err _ => rw [hp] at h; cases h
      | panic => rw [hp] at h; cases h
      | hang => rw [hp] at h; cases h

/-- The places of the files of the torrent are free or taken by files, and all torrents are as they should be. -/
structure Inv (w : World) (info : Info) (d : Bytes) (P : Proc) : Prop where
  layout : Placeable w.cwd P.fs (listedFiles info) d info.pieceLength
  slots : ∀ s ∈ P.slots, SlotOk w info d P.fs s

theorem layout_keeps {cwd : Loc} {files : List File} {d : Bytes} {pl : Nat} {fs fs' : FS} (h : Placeable cwd fs files d pl)
    (hk : Keeps cwd files d fs fs') : Placeable cwd fs' files d pl :=
  ⟨h.plain, h.separate, (hk h.clear).1, h.length, h.small, h.pieceLength⟩

/-- One torrent changes, and the disk, harmlessly. -/
theorem inv_set {w : World} {info : Info} {d : Bytes} {P : Proc} {k : Nat} {s' : Slot} {fs' : FS} (taken : List (Info × Ready)) (log : Option Nat) (said : List Bytes) (h : Inv w info d P)
    (hk : Keeps w.cwd (listedFiles info) d P.fs fs') (hs : SlotOk w info d fs' s') : Inv w info d ⟨P.slots.set k s', fs', taken, log, said⟩ := by
  refine ⟨layout_keeps h.layout hk, ?_⟩
  intro s hmem
  rcases List.mem_or_eq_of_mem_set hmem with hm | rfl
  · exact slotOk_keeps h.layout.clear hk (h.slots s hm)
  · exact hs

theorem paths_listed {w : World} {info : Info} {n : Nat} {s : Sys} (h : Known w info n s) {r : Ready} {rest : List Ready} (hr : s.ready = r :: rest)
    {ws : List FileWriter} (e : (getFileWriters w.build r.files r.piece r.idx r.pieceLength : Res Unit (List FileWriter)) = .ok ws) :
    ∀ x ∈ ws, ∃ f ∈ listedFiles info, f.path = x.path := by
  obtain ⟨-, hfiles, -⟩ := h.ready r (by rw [hr]; simp)
  have := listedFiles_spec hfiles
  exact getFileWriters_paths w.build (fun path => ∃ f ∈ listedFiles info, f.path = path) (by rw [this]; exact fun f hf => ⟨f, hf, rfl⟩) e

/-- The writer takes a piece: a collision, or the published piece and its parts. -/
theorem own_begin {w : World} {info : Info} {n : Nat} {d : Bytes} {fs : FS} {s : Sys} (h : Known w info n s) (hd : Describes w.sha info d)
    (hlay : Placeable w.cwd fs (listedFiles info) d info.pieceLength) {r : Ready} {rest : List Ready} (hr : s.ready = r :: rest) :
    (r.idx < pieceCount d.length info.pieceLength ∧ Collision w.sha r.piece (piece d info.pieceLength r.idx)) ∨
    (r.piece = piece d info.pieceLength r.idx ∧ ∃ ps, PieceParts Unit w.build (listedFiles info) d info.pieceLength r.idx ps ∧
      (getFileWriters w.build r.files r.piece r.idx r.pieceLength : Res Unit (List FileWriter)) = .ok (ps.map (toWriter (listedFiles info)))) := by
  have hmem : r ∈ s.written ++ s.ready := by rw [hr]; simp
  have hlt : r.idx < pieceCount d.length info.pieceLength := by
    rw [← known_count h hd hlay.small]; exact idx_lt h hmem
  obtain ⟨⟨-, hsha⟩, hfiles, hpl⟩ := h.ready r hmem
  have hfiles' := listedFiles_spec hfiles
  by_cases hp : r.piece = piece d info.pieceLength r.idx
  · right
    obtain ⟨ps, hps⟩ := pieceParts (ε := Unit) (m := w.build) hlay.length hlay.small hlay.pieceLength hlt
    exact ⟨hp, ps, hps, by rw [hp, hfiles', hpl]; exact hps.writers⟩
  · exact .inl ⟨hlt, hp, by rw [hsha, ← hd.hashes _ hlt, Nat.mul_comm]⟩

/-- What comes of a part of a torrent's piece that its writer writes. -/
theorem part_keeps {w : World} {info : Info} {d : Bytes} {P : Proc} {s : Slot} (h : Inv w info d P) (hs : s ∈ P.slots) {x : FileWriter} {xs : List FileWriter}
    (hp : s.parts = some (x :: xs)) :
    Keeps w.cwd (listedFiles info) d P.fs (x.writeToFilesystem w.cwd P.fs : Res Unit Unit × FS).2 ∧
    ∀ fs', TornPart w.cwd P.fs x fs' → Keeps w.cwd (listedFiles info) d P.fs fs' := by
  rcases h.slots s hs with ⟨-, -, -, e⟩ | ⟨info', n, hk, hb, hpaths, hown⟩
  · rw [hp] at e; cases e
  · rcases hb with e | hb
    · obtain ⟨r, rest, pre, post, h1, h2, h3, h4, h5⟩ := (hown e).busy _ hp
      cases post with
      | nil => cases h4
      | cons q post =>
        simp only [List.map_cons, List.cons.injEq] at h4
        have hq : Right (listedFiles info) d q := h3.right q (by simp)
        refine ⟨?_, fun fs' ht => ?_⟩
        · rw [h4.1]
          intro hroom
          obtain ⟨fs', e, r, -, k, -, -, -, b⟩ := step_clear (ε := Unit) h.layout.plain h.layout.separate hroom hq
          rw [e]
          exact ⟨r, k, b⟩
        · rw [h4.1] at ht
          exact keeps_own_torn h.layout.plain h.layout.separate hq ht
    · obtain ⟨f, hf, e⟩ := hpaths _ hp x (by simp)
      have ha : Apart (listedFiles info) x.path := by rw [← e]; exact hb f hf
      exact ⟨keeps_apart h.layout.plain ha, fun fs' ht => keeps_apart_torn h.layout.plain ha ht⟩

/-- Torn parts of slots of the process do no harm. -/
theorem torn_keeps {w : World} {info : Info} {d : Bytes} {slots : List Slot} {fs fs' : FS} (ht : TornAll w.cwd fs slots fs') :
    ∀ taken, Inv w info d ⟨slots, fs, taken, none, []⟩ → Keeps w.cwd (listedFiles info) d fs fs' := by
  induction ht with
  | nil => exact fun _ _ => keeps_refl _ _ _ _
  | skip h ih => exact fun taken hi => ih taken ⟨hi.layout, fun s hs => hi.slots s (List.mem_cons_of_mem _ hs)⟩
  | part hx h1 h ih =>
    intro taken hi
    have k1 := (part_keeps hi (List.mem_cons_self ..) hx).2 _ h1
    exact keeps_trans k1 (ih taken ⟨layout_keeps hi.layout k1, fun s hs => slotOk_keeps hi.layout.clear k1 (hi.slots s (List.mem_cons_of_mem _ hs))⟩)

theorem inv_step {w : World} {info : Info} {d : Bytes} {P P' : Proc} (hd : Describes w.sha info d)
    (hdl : Unreserved info) (h : Inv w info d P) (hst : PStep w P P')
    (hq : ∀ s ∈ P'.slots, ∀ i, s.sys.torrent.info = some i → Beside info i) :
    ForgedP w info d P' ∨ (Inv w info d P' ∧ Keeps w.cwd (listedFiles info) d P.fs P'.fs) := by
  cases hst with
  | start hl fs he =>
    have hkeep := keeps_log (d := d) h.layout.plain hdl (createLog_only he)
    exact .inr ⟨⟨layout_keeps h.layout hkeep, fun s hs => slotOk_keeps h.layout.clear hkeep (h.slots s hs)⟩, hkeep⟩
  | log n hl line =>
    have hkeep := keeps_log (d := d) (fs := P.fs) (fs' := P.fs.writeAt (w.cwd ++ logPath.comps) n line) h.layout.plain hdl (fun x hx => writeAt_other _ _ _ hx)
    exact .inr ⟨⟨layout_keeps h.layout hkeep, fun s hs => slotOk_keeps h.layout.clear hkeep (h.slots s hs)⟩, hkeep⟩
  | add hl body infoHash ha =>
    refine .inr ⟨⟨h.layout, ?_⟩, keeps_refl _ _ _ _⟩
    intro s hs
    rcases List.mem_append.mp hs with hs | hs
    · exact h.slots s hs
    · rw [List.mem_singleton.mp hs]
      refine .inl ⟨fresh_init _ _, ?_, rfl, rfl⟩
      have := addMagnet_length ha
      show 2 < infoHash.length
      omega
  | act k s t hk hst hw =>
    have hmem := List.mem_of_getElem? hk
    have hs := h.slots s hmem
    have hkeep := act_keeps h.layout.plain (fun f hf => (hdl f hf).1) hs hst hw
    obtain ⟨a1, a2, more, a3⟩ := act_writer hst hw
    have hlt : k < P.slots.length := (List.getElem?_eq_some_iff.mp hk).1
    have hmem' : (⟨t, s.parts⟩ : Slot) ∈ P.slots.set k ⟨t, s.parts⟩ := List.mem_set hlt _
    refine .inr ⟨inv_set _ _ _ h hkeep ?_, hkeep⟩
    rcases hs with ⟨h1, h2, h3, h4⟩ | ⟨info', n, h1, h2, h3, h4⟩
    · rcases fresh_step (fresh_fs h1 P.fs) hst with hf | ⟨info', n, hk'⟩
      · refine .inl ⟨hf, ?_, ?_, h4⟩
        · rw [a2]; exact h2
        · rw [a1]; exact h3
      · refine .inr ⟨info', n, hk', hq _ hmem' _ hk'.hasInfo, ?_, fun e => ⟨by rw [a1]; exact h3, ?_, ?_⟩⟩
        · intro ws hws
          simp only [h4] at hws
          cases hws
        · intro r hr
          rw [show (Slot.mk t s.parts).sys.written = s.sys.written from hw, h1.written] at hr
          cases hr
        · intro ws hws
          simp only [h4] at hws
          cases hws
    · refine .inr ⟨info', n, known_step (known_fs h1 P.fs) hst, h2, h3, fun e => ?_⟩
      have ho := own_keeps h.layout.clear hkeep (h4 e)
      refine ⟨by rw [a1]; exact ho.up, ?_, ?_⟩
      · intro r hr
        rw [show (Slot.mk t s.parts).sys.written = s.sys.written from hw] at hr
        exact ho.written r hr
      · intro ws hws
        obtain ⟨r, rest, pre, post, b1, b2, b3, b4, b5⟩ := ho.busy ws hws
        refine ⟨r, rest ++ more, pre, post, ?_, b2, b3, b4, b5⟩
        show t.ready = _
        rw [a3, show ({ s.sys with fs := P.fs } : Sys).ready = s.sys.ready from rfl, b1]
        rfl
  | begin k s r ready info' ws hk hp hu hr hi hws =>
    rcases h.slots s (List.mem_of_getElem? hk) with ⟨h1, -⟩ | ⟨info'', n, h1, h2, h3, h4⟩
    · rw [h1.info] at hi; cases hi
    · have e : info'' = info' := by have := h1.hasInfo; rw [hi] at this; cases this; rfl
      subst e
      by_cases e : info'' = info
      · subst e
        rcases own_begin h1 hd h.layout hr with ⟨c1, c2⟩ | ⟨c1, ps, c2, c3⟩
        · exact .inl ⟨r, List.mem_append_right _ (List.mem_singleton.mpr rfl), c1, c2⟩
        · refine .inr ⟨inv_set _ _ _ h (keeps_refl _ _ _ _) (.inr ⟨info'', n, h1, h2, ?_, fun e => ?_⟩), keeps_refl _ _ _ _⟩
          · intro ws' hws'
            cases hws'
            exact paths_listed h1 hr hws
          · refine ⟨hu, (h4 rfl).written, ?_⟩
            intro ws' hws'
            cases hws'
            rw [hws] at c3
            cases c3
            exact ⟨r, ready, [], ps, hr, c1, c2, rfl, by simp⟩
      · refine .inr ⟨inv_set _ _ _ h (keeps_refl _ _ _ _) (.inr ⟨info'', n, h1, h2, ?_, fun e' => absurd e' e⟩), keeps_refl _ _ _ _⟩
        intro ws' hws'
        cases hws'
        exact paths_listed h1 hr hws
  | beginCrash k s r ready info' hk hp hu hr hi hws =>
    rcases h.slots s (List.mem_of_getElem? hk) with ⟨h1, -⟩ | ⟨info'', n, h1, h2, h3, h4⟩
    · rw [h1.info] at hi; cases hi
    · have e : info'' = info' := by have := h1.hasInfo; rw [hi] at this; cases this; rfl
      subst e
      have hk' : Known w info'' n (s.done r ready false).sys := known_write h1 hr s.sys.fs false
      by_cases e : info'' = info
      · subst e
        rcases own_begin h1 hd h.layout hr with ⟨c1, c2⟩ | ⟨c1, ps, c2, c3⟩
        · exact .inl ⟨r, List.mem_append_right _ (List.mem_singleton.mpr rfl), c1, c2⟩
        · rw [hws] at c3; cases c3
      · refine .inr ⟨inv_set _ _ _ h (keeps_refl _ _ _ _) (.inr ⟨info'', n, hk', h2, ?_, fun e' => absurd e' e⟩), keeps_refl _ _ _ _⟩
        intro ws' hws'
        cases hws'
  | part k s x xs fs hk hp hwr =>
    have hmem := List.mem_of_getElem? hk
    have hkeep := (part_keeps h hmem hp).1
    rw [hwr] at hkeep
    refine .inr ⟨inv_set _ _ _ h hkeep ?_, hkeep⟩
    rcases h.slots s hmem with ⟨-, -, -, e⟩ | ⟨info', n, h1, h2, h3, h4⟩
    · rw [hp] at e; cases e
    · refine .inr ⟨info', n, h1, h2, ?_, fun e => ?_⟩
      · intro ws hws y hy
        cases hws
        exact h3 _ hp y (List.mem_cons_of_mem _ hy)
      · have ho := own_keeps h.layout.clear hkeep (h4 e)
        refine ⟨ho.up, ho.written, ?_⟩
        intro ws hws
        cases hws
        obtain ⟨r, rest, pre, post, b1, b2, b3, b4, b5⟩ := ho.busy _ hp
        cases post with
        | nil => cases b4
        | cons q post =>
          simp only [List.map_cons, List.cons.injEq] at b4
          refine ⟨r, rest, pre ++ [q], post, b1, b2, by rw [List.append_assoc]; exact b3, b4.2, ?_⟩
          intro p hp'
          rcases List.mem_append.mp hp' with hp' | hp'
          · exact b5 p hp'
          · rw [List.mem_singleton.mp hp']
            obtain ⟨fs', e', -, o, -⟩ := step_clear (ε := Unit) h.layout.plain h.layout.separate h.layout.clear (b3.right q (by simp))
            rw [← b4.1, hwr] at e'
            cases e'
            exact o
  | partCrash k s x xs fs r ready hk hp hr hwr =>
    have hmem := List.mem_of_getElem? hk
    have hkeep := (part_keeps h hmem hp).1
    rw [hwr] at hkeep
    refine .inr ⟨inv_set _ _ _ h hkeep ?_, hkeep⟩
    rcases h.slots s hmem with ⟨-, -, -, e⟩ | ⟨info', n, h1, h2, h3, h4⟩
    · rw [hp] at e; cases e
    · refine .inr ⟨info', n, known_write h1 hr s.sys.fs false, h2, ?_, fun e => ?_⟩
      · intro ws hws
        cases hws
      · obtain ⟨r', rest, pre, post, b1, b2, b3, b4, b5⟩ := (h4 e).busy _ hp
        cases post with
        | nil => cases b4
        | cons q post =>
          simp only [List.map_cons, List.cons.injEq] at b4
          obtain ⟨fs', e', -, o, -⟩ := step_clear (ε := Unit) h.layout.plain h.layout.separate h.layout.clear (b3.right q (by simp))
          rw [← b4.1, hwr] at e'
          cases e'
  | «end» k s r ready hk hp hr =>
    have hmem := List.mem_of_getElem? hk
    refine .inr ⟨inv_set _ _ _ h (keeps_refl _ _ _ _) ?_, keeps_refl _ _ _ _⟩
    rcases h.slots s hmem with ⟨-, -, -, e⟩ | ⟨info', n, h1, h2, h3, h4⟩
    · rw [hp] at e; cases e
    · refine .inr ⟨info', n, known_write h1 hr s.sys.fs true, h2, ?_, fun e => ?_⟩
      · intro ws hws
        cases hws
      · obtain ⟨r', rest, pre, post, b1, b2, b3, b4, b5⟩ := (h4 e).busy _ hp
        cases post with
        | cons q post => cases b4
        | nil =>
          rw [List.append_nil] at b3
          rw [hr] at b1
          cases b1
          refine ⟨rfl, ?_, fun ws hws => by cases hws⟩
          intro r' hr'
          rcases List.mem_append.mp hr' with hr' | hr'
          · exact (h4 e).written r' hr'
          · rw [List.mem_singleton.mp hr']
            exact ⟨b2, pre, b3, b5⟩
  | stop order ho fs ht =>
    have hkeep := torn_keeps (info := info) (d := d) ht P.taken ⟨h.layout, fun s hs => h.slots s (ho.mem_iff.mp hs)⟩
    exact .inr ⟨⟨layout_keeps h.layout hkeep, fun s hs => by cases hs⟩, hkeep⟩

theorem forgedP_step {w : World} {info : Info} {d : Bytes} {P P' : Proc} (h : ForgedP w info d P) (hst : PStep w P P') : ForgedP w info d P' := by
  obtain ⟨r, hr, h⟩ := h
  refine ⟨r, ?_, h⟩
  cases hst with
  | begin => exact List.mem_append_left _ hr
  | beginCrash => exact List.mem_append_left _ hr
  | _ => exact hr

theorem inv_steps {w : World} {info : Info} {d : Bytes} {P P' : Proc} (hd : Describes w.sha info d)
    (hdl : Unreserved info) (h : Inv w info d P) (hst : PSteps w (Beside info) P P') :
    ForgedP w info d P' ∨ (Inv w info d P' ∧ Keeps w.cwd (listedFiles info) d P.fs P'.fs) := by
  induction hst with
  | refl => exact .inr ⟨h, keeps_refl _ _ _ _⟩
  | tail hs hst hq ih =>
    rcases ih with ih | ⟨i1, i2⟩
    · exact .inl (forgedP_step ih hst)
    · rcases inv_step hd hdl i1 hst hq with j | ⟨j1, j2⟩
      · exact .inl j
      · exact .inr ⟨j1, keeps_trans i2 j2⟩

end RustBit
