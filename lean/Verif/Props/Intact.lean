/-
C127: what is on disk and belongs to no torrent.
-/
import Verif.Props.Growth

namespace RustBit
open Spec

/-- On the way from one disk to another nothing is removed, and only bytes within listed files change. -/
structure Spares (cwd : Loc) (may : Loc → Nat → Prop) (fs fs' : FS) : Prop where
  dir : ∀ l, ¬ OwnPlace cwd l → fs l = some .dir → fs' l = some .dir
  file : ∀ l, ¬ OwnPlace cwd l → ∀ c, fs l = some (.file c) →
    ∃ c', fs' l = some (.file c') ∧ c.length ≤ c'.length ∧ (∀ i, i < c.length → c'[i]? = c[i]? ∨ may l i) ∧ (c' = c ∨ ∃ i, may l i)
  new : ∀ l, ¬ OwnPlace cwd l → fs l = none → ∀ c, fs' l = some (.file c) → c = [] ∨ ∃ i, may l i

theorem spares_refl (cwd : Loc) (may : Loc → Nat → Prop) (fs : FS) : Spares cwd may fs fs :=
  ⟨fun _ _ h => h, fun _ _ c h => ⟨c, h, Nat.le_refl _, fun _ _ => .inl rfl, .inl rfl⟩, fun _ _ h c hc => by rw [h] at hc; cases hc⟩

theorem spares_trans {cwd : Loc} {may may' : Loc → Nat → Prop} {a b c : FS} (h1 : Spares cwd may a b) (hm : ∀ l i, may l i → may' l i) (h2 : Spares cwd may' b c) :
    Spares cwd may' a c := by
  refine ⟨fun l hl h => h2.dir l hl (h1.dir l hl h), fun l hl x hx => ?_, fun l hl hx z hz => ?_⟩
  · obtain ⟨y, hy, l1, b1, n1⟩ := h1.file l hl x hx
    obtain ⟨z, hz, l2, b2, n2⟩ := h2.file l hl y hy
    refine ⟨z, hz, Nat.le_trans l1 l2, fun i hi => ?_, ?_⟩
    · rcases b2 i (by omega) with h | h
      · rcases b1 i hi with h' | h'
        · exact .inl (h.trans h')
        · exact .inr (hm _ _ h')
      · exact .inr h
    · rcases n2 with h | h
      · rcases n1 with h' | ⟨i, h'⟩
        · exact .inl (h.trans h')
        · exact .inr ⟨i, hm _ _ h'⟩
      · exact .inr h
  · cases hb : b l with
    | none => exact h2.new l hl hb z hz
    | some n =>
      cases n with
      | dir => rw [h2.dir l hl hb] at hz; cases hz
      | file y =>
        obtain ⟨z', hz', -, -, n2⟩ := h2.file l hl y hb
        rw [hz] at hz'
        cases hz'
        rcases n2 with h | h
        · rcases h1.new l hl hx y hb with h' | ⟨i, h'⟩
          · exact .inl (h.trans h')
          · exact .inr ⟨i, hm _ _ h'⟩
        · exact .inr h

theorem spares_quiet {cwd : Loc} {may : Loc → Nat → Prop} {fs fs' : FS} (h : Quiet fs fs') : Spares cwd may fs fs' :=
  ⟨fun l _ hd => (h l).1 _ hd, fun l _ c hc => ⟨c, (h l).1 _ hc, Nat.le_refl _, fun _ _ => .inl rfl, .inl rfl⟩, fun l _ hn c hc => .inl ((h l).2 hn c hc)⟩

theorem spares_same {cwd : Loc} {may : Loc → Nat → Prop} {fs fs' : FS} (h : ∀ l, ¬ OwnPlace cwd l → fs' l = fs l) : Spares cwd may fs fs' :=
  ⟨fun l hl hd => (h l hl).trans hd, fun l hl c hc => ⟨c, (h l hl).trans hc, Nat.le_refl _, fun _ _ => .inl rfl, .inl rfl⟩,
    fun l hl hn c hc => by rw [h l hl, hn] at hc; cases hc⟩

/-- A part all of whose bytes may be written. -/
def Allowed (cwd : Loc) (may : Loc → Nat → Prop) (x : FileWriter) : Prop := ∀ i, x.start ≤ i → i < x.start + x.piece.length → may (place cwd x.path) i

theorem spares_part {cwd : Loc} {may : Loc → Nat → Prop} {fs : FS} {x : FileWriter} (h : Allowed cwd may x) :
    Spares cwd may fs (x.writeToFilesystem cwd fs : Res Unit Unit × FS).2 := by
  rcases write_one (cwd := cwd) (fs := fs) x (r := (x.writeToFilesystem cwd fs : Res Unit Unit × FS).1) rfl with h' | ⟨h0, h1, h2⟩
  · exact spares_quiet h'
  · have hp : x.piece = [] ∨ may (place cwd x.path) x.start := by
      by_cases hb : x.piece = []
      · exact .inl hb
      · exact .inr (h _ (Nat.le_refl _) (by have := List.length_pos_iff.mpr hb; omega))
    refine ⟨fun l hl hd => ?_, fun l hl c hc => ?_, fun l hl hn c hc => ?_⟩
    · by_cases e : l = place cwd x.path
      · have hw := writable_place.mp (writeToFilesystem_ok_iff.mp h0)
        exact absurd (e ▸ hd) hw.2.2.2
      · exact (h2 l e).1 _ hd
    · by_cases e : l = place cwd x.path
      · subst e
        rw [readFile, hc] at h1
        refine ⟨_, h1, pwrite_grows _ _ _, fun i hi => ?_, ?_⟩
        · by_cases hin : x.start ≤ i ∧ i < x.start + x.piece.length
          · exact .inr (h i hin.1 hin.2)
          · exact .inl (pwrite_outside _ _ _ _ hi (by omega))
        · rcases hp with hp | hp
          · exact .inl (by simp [pwrite, hp])
          · exact .inr ⟨_, hp⟩
      · exact ⟨c, (h2 l e).1 _ hc, Nat.le_refl _, fun _ _ => .inl rfl, .inl rfl⟩
    · by_cases e : l = place cwd x.path
      · subst e
        rcases hp with hp | hp
        · rw [readFile, hn] at h1
          have := h1.symm.trans hc
          simp [pwrite, hp] at this
          exact .inl this
        · exact .inr ⟨_, hp⟩
      · exact .inl ((h2 l e).2 hn c hc)

theorem spares_torn {cwd : Loc} {may : Loc → Nat → Prop} {fs fs' : FS} {x : FileWriter} (h : Allowed cwd may x) (ht : TornPart cwd fs x fs') :
    Spares cwd may fs fs' := by
  cases ht with
  | dirs k hk => exact spares_quiet (quiet_dirs _ _ _)
  | data n => exact spares_part (x := { x with piece := x.piece.take n }) fun i h1 h2 => h i h1 (by simp only [List.length_take] at h2; omega)

theorem spares_tornAll {cwd : Loc} {may : Loc → Nat → Prop} {fs fs' : FS} {slots : List Slot} (ht : TornAll cwd fs slots fs') :
    (∀ s ∈ slots, ∀ ws, s.parts = some ws → ∀ x ∈ ws, Allowed cwd may x) → Spares cwd may fs fs' := by
  induction ht with
  | nil => exact fun _ => spares_refl _ _ _
  | skip _ ih => exact fun h => ih fun s hs => h s (List.mem_cons_of_mem _ hs)
  | part hx h1 _ ih =>
    exact fun h => spares_trans (spares_torn (h _ (by simp) _ hx _ (by simp)) h1) (fun _ _ h => h) (ih fun s hs => h s (List.mem_cons_of_mem _ hs))

theorem spares_act {w : World} {may : Loc → Nat → Prop} {fs : FS} {s t : Sys} (hl : s.torrent.infoHash.length = 20 ∨ s.torrent.infoHash.length = 32) (hst : Step w { s with fs := fs } t)
    (hw : t.written = s.written) : Spares w.cwd may fs t.fs := by
  cases hst with
  | collect p rest hd hm hi tcp f peerId room collected fs' hnh hc =>
    have := (collectInfo_tried (ε := Unit) w.build w.cwd fs (dialOf p.endpoint tcp) f peerId (infoHash := s.torrent.infoHash) (by omega) room).1
    rw [hc] at this
    have hd : ∀ l, ¬ OwnPlace w.cwd l → l ≠ w.cwd ++ [b!"downloads"] → fs' l = fs l := fun l hl' hdl => this.elsewhere l hdl (fun e => hl' (e ▸ cache_own hl))
    rcases this.dir with e | ⟨e1, e2⟩
    · refine spares_same fun l hl' => ?_
      by_cases hdl : l = w.cwd ++ [b!"downloads"]
      · rw [hdl]; exact e
      · exact hd l hl' hdl
    · have keep : ∀ l, ¬ OwnPlace w.cwd l → ∀ n, fs l = some n → fs' l = some n := by
        intro l hl' n hn
        by_cases hdl : l = w.cwd ++ [b!"downloads"]
        · rw [hdl, e1] at hn; cases hn
        · exact (hd l hl' hdl).trans hn
      refine ⟨fun l hl' h => keep l hl' _ h, fun l hl' c h => ⟨c, keep l hl' _ h, Nat.le_refl _, fun _ _ => .inl rfl, .inl rfl⟩, fun l hl' hn c h => ?_⟩
      by_cases hdl : l = w.cwd ++ [b!"downloads"]
      · rw [hdl] at h
        cases e2.symm.trans h
      · cases ((hd l hl' hdl).trans hn).symm.trans h
  | write r ready hu hr res fs' hwr =>
    have := congrArg List.length hw
    simp at this
  | announce => exact spares_refl _ _ _
  | take => exact spares_refl _ _ _
  | finishOk => exact spares_refl _ _ _
  | finishErr => exact spares_refl _ _ _
  | finishPanic => exact spares_refl _ _ _
  | success => exact spares_refl _ _ _
  | failed => exact spares_refl _ _ _
  | found => exact spares_refl _ _ _

/-- Where the torrents of which pieces have been written may write: in files that they list and, if `strict`, only within the listed length. -/
def MayWrite (strict : Bool) (cwd : Loc) (taken : List (Info × Ready)) (l : Loc) (i : Nat) : Prop :=
  ∃ info ∈ writtenOf taken, ∃ f ∈ listedFiles info, place cwd f.path = l ∧ (strict = true → i < f.length)

theorem mayWrite_mono {strict : Bool} {cwd : Loc} {a b : List (Info × Ready)} (h : ∀ x ∈ a, x ∈ b) (l : Loc) (i : Nat) (hm : MayWrite strict cwd a l i) :
    MayWrite strict cwd b l i := by
  obtain ⟨info, h1, h2⟩ := hm
  exact ⟨info, writtenOf_mono h info h1, h2⟩

structure Careful (strict : Bool) (w : World) (taken : List (Info × Ready)) (s : Slot) : Prop where
  hash : s.sys.torrent.infoHash.length = 20 ∨ s.sys.torrent.infoHash.length = 32
  parts : ∀ ws, s.parts = some ws → ∀ x ∈ ws, Allowed w.cwd (MayWrite strict w.cwd taken) x

theorem careful_step {strict : Bool} {w : World} {P P' : Proc} (hst : PStep w P P') (ha : ∀ s ∈ P.slots, SlotAmong w s) (h : ∀ s ∈ P.slots, Careful strict w P.taken s)
    (hc : strict = true → w.build = .debug ∨ ∀ x ∈ P'.taken, Countable x) :
    (∀ s ∈ P'.slots, Careful strict w P'.taken s) ∧ Spares w.cwd (MayWrite strict w.cwd P'.taken) P.fs P'.fs := by
  have htk := mayWrite_mono (strict := strict) (cwd := w.cwd) (taken_step hst)
  have old : ∀ s ∈ P.slots, Careful strict w P'.taken s := fun s hs => ⟨(h s hs).hash, fun ws e x hx i h1 h2 => htk _ _ ((h s hs).parts ws e x hx i h1 h2)⟩
  have put : ∀ {k : Nat} {s' : Slot}, Careful strict w P'.taken s' → ∀ s ∈ P.slots.set k s', Careful strict w P'.taken s := by
    intro k s' hs' s hs
    rcases List.mem_or_eq_of_mem_set hs with hm | rfl
    · exact old s hm
    · exact hs'
  cases hst with
  | start hl fs he =>
    exact ⟨old, spares_same fun l hl' => createLog_only he l fun e => hl' (.inl (by rw [e, logPath_comps]))⟩
  | log n hl line =>
    exact ⟨old, spares_same fun l hl' => writeAt_other _ _ _ fun e => hl' (.inl (by rw [e, logPath_comps]))⟩
  | add hl body infoHash hadd =>
    refine ⟨fun s hs => ?_, spares_refl _ _ _⟩
    rcases List.mem_append.mp hs with hs | hs
    · exact old s hs
    · rw [List.mem_singleton.mp hs]
      exact ⟨addMagnet_length hadd, fun ws e => by cases e⟩
  | act k s t hk hst hw =>
    have hmem := List.mem_of_getElem? hk
    obtain ⟨-, a2, -⟩ := act_writer hst hw
    exact ⟨put ⟨by rw [a2]; exact (h s hmem).hash, (old s hmem).parts⟩, spares_act (h s hmem).hash hst hw⟩
  | begin k s r ready info ws hk hp hu hr hi hws =>
    have hmem := List.mem_of_getElem? hk
    refine ⟨put ⟨(h s hmem).hash, fun ws' e x hx i i1 i2 => ?_⟩, spares_refl _ _ _⟩
    cases e
    obtain ⟨n, hkn⟩ := among_known (ha s hmem).1 hi
    have hmr : r ∈ s.sys.written ++ s.sys.ready := by rw [hr]; simp
    obtain ⟨-, hfiles, hpl⟩ := hkn.ready r hmr
    have hpos := idx_position hkn hmr
    have hin : (info, r) ∈ P.taken ++ [(info, r)] := by simp
    cases strict with
    | false =>
      obtain ⟨f, hf, e⟩ := paths_listed hkn hr hws x hx
      exact ⟨info, List.mem_map.mpr ⟨_, hin, rfl⟩, f, hf, by rw [e], fun h => by cases h⟩
    | true =>
      obtain ⟨f, hf, e, hfit⟩ := writers_within ((hc rfl).imp_right fun hc => by
        have h : total (listedFiles info) + r.piece.length ≤ 2 ^ 64 := hc _ hin
        rw [hpl]; omega) hws x hx
      rw [listedFiles_spec hfiles] at hf
      exact ⟨info, List.mem_map.mpr ⟨_, hin, rfl⟩, f, hf, by rw [e], fun _ => by omega⟩
  | beginCrash k s r ready info hk hp hu hr hi hws =>
    exact ⟨put ⟨(h s (List.mem_of_getElem? hk)).hash, fun ws e => by cases e⟩, spares_refl _ _ _⟩
  | part k s x xs fs hk hp hwr =>
    have hmem := List.mem_of_getElem? hk
    refine ⟨put ⟨(h s hmem).hash, fun ws e y hy => ?_⟩, ?_⟩
    · cases e
      exact (h s hmem).parts _ hp y (List.mem_cons_of_mem _ hy)
    · have := spares_part (fs := P.fs) ((h s hmem).parts _ hp x (by simp))
      rw [hwr] at this
      exact this
  | partCrash k s x xs fs r ready hk hp hr hwr =>
    have hmem := List.mem_of_getElem? hk
    refine ⟨put ⟨(h s hmem).hash, fun ws e => by cases e⟩, ?_⟩
    have := spares_part (fs := P.fs) ((h s hmem).parts _ hp x (by simp))
    rw [hwr] at this
    exact this
  | «end» k s r ready hk hp hr =>
    exact ⟨put ⟨(h s (List.mem_of_getElem? hk)).hash, fun ws e => by cases e⟩, spares_refl _ _ _⟩
  | stop order ho fs ht =>
    exact ⟨fun s hs => (by cases hs), spares_tornAll ht fun s hs => (h s (ho.mem_iff.mp hs)).parts⟩

theorem careful_steps {strict : Bool} {w : World} {Q : Info → Prop} {P P' : Proc} (hst : PSteps w Q P P') (ha : ∀ s ∈ P.slots, SlotAmong w s)
    (h : ∀ s ∈ P.slots, Careful strict w P.taken s) (hc : strict = true → w.build = .debug ∨ ∀ x ∈ P'.taken, Countable x) :
    (∀ s ∈ P'.slots, Careful strict w P'.taken s) ∧ Spares w.cwd (MayWrite strict w.cwd P'.taken) P.fs P'.fs := by
  induction hst with
  | refl => exact ⟨h, spares_refl _ _ _⟩
  | tail hs hst _ ih =>
    have hsub := taken_step hst
    obtain ⟨i1, i2⟩ := ih fun hst' => (hc hst').imp_right fun hc x hx => hc x (hsub x hx)
    obtain ⟨j1, j2⟩ := careful_step hst (slotAmong_steps ha hs) i1 hc
    exact ⟨j1, spares_trans i2 (mayWrite_mono hsub) j2⟩

/-- C127, what is removed: nothing. At every moment of every run every directory that was there at first is there, and every file, no shorter than it was, apart from the log and the
saved metadata. -/
theorem C127_nothing_removed {w : World} {Q : Info → Prop} {fs : FS} {n : Nat} {A : App} (h : ASteps w Q (App.init fs n) A) (l : Loc) (hl : ¬ OwnPlace w.cwd l) :
    (fs l = some .dir → A.proc.fs l = some .dir) ∧
    ∀ c, fs l = some (.file c) → ∃ c', A.proc.fs l = some (.file c') ∧ c.length ≤ c'.length := by
  have := (careful_steps (strict := false) (proc_steps (ainv_init fs n) h) (fun _ h => by cases h) (fun _ h => by cases h) (fun h => by cases h)).2
  refine ⟨this.dir l hl, fun c hc => ?_⟩
  obtain ⟨c', h1, h2, -⟩ := this.file l hl c hc
  exact ⟨c', h1, h2⟩

/-- C127, bytes: of a file that was there at first, every byte is as it was, unless it is within the listed length of a file in the same place of a torrent of which a piece has been
written. Missing: in a release build, torrents so long that the end of a piece may be beyond what can be counted in 64 bits (`C127_refuted`). -/
theorem C127_bytes_partial {w : World} {Q : Info → Prop} {fs : FS} {n : Nat} {A : App} (h : ASteps w Q (App.init fs n) A)
    (hc : w.build = .debug ∨ ∀ x ∈ A.proc.taken, Countable x) (l : Loc) (hl : ¬ OwnPlace w.cwd l) (c : Bytes) (hf : fs l = some (.file c)) :
    ∃ c', A.proc.fs l = some (.file c') ∧ ∀ i, i < c.length → c'[i]? = c[i]? ∨ ListsAt w.cwd (writtenOf A.proc.taken) l (i + 1) := by
  have := (careful_steps (strict := true) (proc_steps (ainv_init fs n) h) (fun _ h => by cases h) (fun _ h => by cases h) (fun _ => hc)).2
  obtain ⟨c', h1, -, h2, -⟩ := this.file l hl c hf
  refine ⟨c', h1, fun i hi => (h2 i hi).imp_right ?_⟩
  rintro ⟨info, g1, f, g2, g3, g4⟩
  exact ⟨info, g1, f, g2, g3, g4 rfl⟩

/-- C127, places where no torrent lists a file: in every build, a file there is as it was, byte for byte, and if there was none there is none with anything in it. -/
theorem C127_others {w : World} {Q : Info → Prop} {fs : FS} {n : Nat} {A : App} (h : ASteps w Q (App.init fs n) A)
    (l : Loc) (hl : ¬ OwnPlace w.cwd l) (hno : ∀ x ∈ A.proc.taken, ∀ f ∈ listedFiles x.1, place w.cwd f.path ≠ l) :
    (∀ c, fs l = some (.file c) → A.proc.fs l = some (.file c)) ∧ (fs l = none → ∀ c, A.proc.fs l = some (.file c) → c = []) := by
  have := (careful_steps (strict := false) (proc_steps (ainv_init fs n) h) (fun _ h => by cases h) (fun _ h => by cases h) (fun h => by cases h)).2
  have no : ∀ i, ¬ MayWrite false w.cwd A.proc.taken l i := by
    rintro i ⟨info, h1, f, h2, h3, -⟩
    obtain ⟨x, hx, e⟩ := List.mem_map.mp h1
    exact hno x hx f (by rw [e]; exact h2) h3
  refine ⟨fun c hc => ?_, fun hn c hc => ?_⟩
  · obtain ⟨c', h1, -, -, e | ⟨i, hi⟩⟩ := this.file l hl c hc
    · rw [← e]; exact h1
    · exact absurd hi (no i)
  · rcases this.new l hl hn c hc with e | ⟨i, hi⟩
    · exact e
    · exact absurd hi (no i)

/-- All metadata of which pieces have been written were those of torrents. -/
theorem taken_all {w : World} {Q : Info → Prop} {P P' : Proc} (hst : PSteps w Q P P') (h : ∀ x ∈ P.taken, Q x.1) : ∀ x ∈ P'.taken, Q x.1 := by
  induction hst with
  | refl => exact h
  | tail hs hst hq ih =>
    cases hst with
    | begin k s r ready info ws hk hp hu hr hi hws =>
      intro x hx
      rcases List.mem_append.mp hx with hx | hx
      · exact ih x hx
      · rw [List.mem_singleton.mp hx]
        exact hq ⟨s.sys, some ws⟩ (List.mem_set (List.getElem?_eq_some_iff.mp hk).1 _) info hi
    | beginCrash k s r ready info hk hp hu hr hi hws =>
      intro x hx
      rcases List.mem_append.mp hx with hx | hx
      · exact ih x hx
      · rw [List.mem_singleton.mp hx]
        exact hq (s.done r ready false) (List.mem_set (List.getElem?_eq_some_iff.mp hk).1 _) info hi
    | _ => exact ih

/-- C127 in terms of the torrents: as long as no torrent lists a file in this place, what is there stays as it is. -/
theorem C127_unlisted {w : World} {fs : FS} {n : Nat} {A : App} {l : Loc} (h : ASteps w (fun info => ∀ f ∈ listedFiles info, place w.cwd f.path ≠ l) (App.init fs n) A)
    (hl : ¬ OwnPlace w.cwd l) :
    (∀ c, fs l = some (.file c) → A.proc.fs l = some (.file c)) ∧ (fs l = none → ∀ c, A.proc.fs l = some (.file c) → c = []) :=
  C127_others h l hl (taken_all (proc_steps (ainv_init fs n) h) (fun _ h => by cases h))

/-- Without the condition on lengths `C127_bytes_partial` is false: a torrent that lists two bytes in a place changes the third byte of the file there. -/
theorem C127_refuted : ∃ (files : List File) (piece c c' : Bytes) (idx pl : Nat) (f : File) (fs fs' : FS), f ∈ files ∧ total files < 2 ^ 64 ∧ idx < pieceCount (total files) pl ∧
    (∀ g ∈ files, place [] g.path = place [] f.path → g.length = 2) ∧ fs (place [] f.path) = some (.file c) ∧
    (writePiece .release [] fs piece idx files pl : Res Unit Unit × FS) = (.ok (), fs') ∧ fs' (place [] f.path) = some (.file c') ∧ c[2]? = some 9 ∧ c'[2]? = some 1 :=
  ⟨[⟨[b!"a"], 2 ^ 63 - 2⟩, ⟨[b!"b"], 2 ^ 63 - 2⟩, ⟨[b!"c"], 2⟩], List.replicate 8 1, [9, 9, 9], List.replicate 8 1, 2, 2 ^ 63 - 2, ⟨[b!"c"], 2⟩,
    (fun l => if l = [b!"c"] then some (.file [9, 9, 9]) else none),
    (writePiece .release [] (fun l => if l = [b!"c"] then some (.file [9, 9, 9]) else none) (List.replicate 8 1) 2
      [⟨[b!"a"], 2 ^ 63 - 2⟩, ⟨[b!"b"], 2 ^ 63 - 2⟩, ⟨[b!"c"], 2⟩] (2 ^ 63 - 2) : Res Unit Unit × FS).2,
    by simp, by decide +kernel, by decide +kernel, by decide +kernel, by decide +kernel, Prod.ext (by decide +kernel) rfl, by decide +kernel, rfl, rfl⟩

/-- Non-vacuity: a run during which `/a` is written while `/b`, which no torrent lists, stays as it is. -/
example (w : World) (hsha : ∀ b, (w.sha b).length = 20) (hcwd : w.cwd ≠ []) : ∃ A,
    ASteps w (fun info => ∀ f ∈ listedFiles info, place w.cwd f.path ≠ [b!"b"]) (App.init (fun l => if l = [b!"b"] then some (.file [5]) else none) 1) A ∧
    readFile A.proc.fs [b!"a"] = some [1, 2, 3] ∧ A.proc.fs [b!"b"] = some (.file [5]) := by
  have ne : ∀ x : Loc, x.length ≤ 1 → x ≠ w.cwd ++ [b!"test.log"] := by
    rintro x hx rfl
    have := List.length_pos_iff.mpr hcwd
    rw [List.length_append, List.length_singleton] at hx
    omega
  have nb : ∀ (x : Bytes) (q : Loc), w.cwd ++ x :: q ≠ [b!"b"] := by
    intro x q e
    have e := congrArg List.length e
    have := List.length_pos_iff.mpr hcwd
    simp only [List.length_append, List.length_cons, List.length_nil] at e
    omega
  let fs : FS := fun l => if l = [b!"b"] then some (.file [5]) else none
  have hfs : ∀ l, l ≠ [b!"b"] → fs l = none := fun l h => if_neg h
  obtain ⟨fs', h1, h2, h3⟩ := started w (fun info => ∀ f ∈ listedFiles info, place w.cwd f.path ≠ [b!"b"]) (fs := fs) 1 (by rw [hfs _ (nb _ _)]; simp)
  have ha : fs' [b!"a"] = none := (h3 _ (ne _ (by simp))).trans (hfs _ (by decide))
  obtain ⟨digits, hx⟩ := hex_exists (List.replicate 20 7)
  have hpl : Plain [b!"a"] := ⟨by simp, by decide⟩
  obtain ⟨A', s, g3, -, -, -, g4⟩ := C54_refuted_program (thread := 0) h1 hsha (by simp) init_up (by show 0 < 1; decide) (by simp)
    (C71_hex_partial w.build (List.replicate 20 7) digits [] (by simp) hx rfl (by simp)) (by simp)
    ⟨.inr ((h3 _ (other_name (by decide) [])).trans (hfs _ (nb _ _))), (h3 _ (other_name (by decide) _)).trans (hfs _ (nb _ _))⟩ [b!"a"]
    hpl (by decide +kernel) (by decide) (by
      rintro ⟨t, ht⟩
      have e := congrArg List.length ht
      have := List.length_pos_iff.mpr hcwd
      simp only [List.length_append, List.length_singleton] at e
      omega) [1, 2, 3] (by simp) (by decide)
    (by
      intro f hf
      rw [List.mem_singleton.mp hf]
      show place w.cwd [absText [b!"a"]] ≠ _
      rw [place_abs hpl]
      decide)
    (by
      intro q hq hne c
      have hl : q.length ≤ 1 := hq.length_le
      have hb : q ≠ [b!"b"] := by
        rintro rfl
        have := hq.eq_of_length rfl
        exact absurd this (by decide)
      rw [show (App.proc _).fs q = fs' q from rfl, h3 q (ne q hl), hfs q hb]
      simp)
    (by rw [show (App.proc _).fs [b!"a"] = fs' [b!"a"] from rfl, ha]; simp)
    (by
      intro c hc
      have : readFile fs' [b!"a"] = some c := hc
      rw [readFile, ha] at this
      cases this)
  have hown : ¬ OwnPlace w.cwd [b!"b"] := by
    rintro (e | ⟨name, -, -, e⟩)
    · exact nb _ _ e.symm
    · exact nb _ _ e.symm
  exact ⟨A', h1.trans g3.steps, g4, (C127_unlisted (h1.trans g3.steps) hown).1 [5] (if_pos rfl)⟩

/-- Also the user's own files in `downloads` are left alone, if their names are not those of saved metadata. -/
example : ¬ OwnPlace [b!"home"] [b!"home", b!"downloads", b!"photo.jpg"] ∧ ¬ OwnPlace [b!"home"] [b!"home", b!"a b"] ∧
    OwnPlace [b!"home"] [b!"home", b!"downloads", b!"aaaaaaaaaaaaaaaaaaa%00"] := by
  refine ⟨?_, ?_, ?_⟩
  · rintro (h | ⟨name, -, h, e⟩)
    · exact absurd h (by decide)
    · have e : b!"photo.jpg" = name := by simpa using e
      rw [← e] at h
      simp [percentDecode] at h
  · rintro (h | ⟨name, -, h, e⟩)
    · exact absurd h (by decide)
    · simp at e
  · have : percentEncode (List.replicate 19 97 ++ [0]) = b!"aaaaaaaaaaaaaaaaaaa%00" := by decide
    exact this ▸ cache_own (cwd := [b!"home"]) (hash := List.replicate 19 97 ++ [0]) (.inl rfl)

end RustBit
