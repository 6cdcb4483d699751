/-
C69, C111 and C112 for files whose paths are made of anything: writers that survive, and runs that get to the files.
-/
import Verif.Props.AnywhereProcess
import Verif.Props.FairTrackers
import Verif.Props.CacheKept

namespace RustBit
open Spec

/-- What is done on disk for a file: directories on the way to it are made, and a file is in its place in the end or nothing has changed there. -/
structure Local (cwd : Loc) (path : List Bytes) (fs fs' : FS) : Prop where
  changes : ∀ l, fs' l ≠ fs l → Way cwd path l ∨ l = place cwd path ∧ ∃ c, fs' l = some (.file c)
  files : ∀ l c, l ≠ place cwd path → fs' l = some (.file c) → fs l = some (.file c)

theorem local_dirs (cwd : Loc) (path : List Bytes) (fs : FS) {k : Nat} (hk : k < (PathBuf.parse (joinPath path)).comps.length) :
    Local cwd path fs (fs.createDirAll ((PathBuf.parse (joinPath path)).base cwd) ((PathBuf.parse (joinPath path)).comps.take k)).2 := by
  have ha := createDirAllRev_adds (base := (PathBuf.parse (joinPath path)).base cwd) ((PathBuf.parse (joinPath path)).comps.take k).reverse fs
  refine ⟨fun l hl => .inl ?_, fun l c _ h => ha.2 l c h⟩
  obtain ⟨-, q, c, ⟨t, h2⟩, h3, h4⟩ := createDirAllRev_changes _ fs l hl
  rw [List.reverse_reverse] at h2
  have hc := List.take_append_drop k (PathBuf.parse (joinPath path)).comps
  cases hd : (PathBuf.parse (joinPath path)).comps.drop k with
  | nil =>
    have := congrArg List.length hd
    rw [List.length_drop, List.length_nil] at this
    omega
  | cons n r =>
    rw [hd, ← h2] at hc
    rw [joinPath_text] at hc h4
    cases t with
    | nil => exact ⟨q, c, n, r, by rw [← hc]; simp, h3, h4⟩
    | cons m t => exact ⟨q, c, m, t ++ n :: r, by rw [← hc]; simp, h3, h4⟩

theorem local_write (cwd : Loc) (fs : FS) (x : FileWriter) : Local cwd x.path fs (x.writeToFilesystem cwd fs : Res Unit Unit × FS).2 := by
  by_cases hr : (x.writeToFilesystem cwd fs : Res Unit Unit × FS).1 = .ok ()
  · obtain ⟨h1, h2, h3, h4⟩ := writable_place.mp (writeToFilesystem_ok_iff.mp hr)
    obtain ⟨fs1, e, k1, k2, k3, -⟩ := writeToFilesystem_place (ε := Unit) h1 h2 h3 h4
    rw [e]
    refine ⟨fun l hl => ?_, fun l c hne hc => ?_⟩
    · by_cases hw : Way cwd x.path l
      · exact .inl hw
      · by_cases hp : l = place cwd x.path
        · exact .inr ⟨hp, _, by rw [hp]; exact k1⟩
        · exact absurd (k3 l hw hp) hl
    · by_cases hw : Way cwd x.path l
      · have : fs1 l = some (.file c) := hc
        rw [k2 l hw] at this
        cases this
      · rw [← k3 l hw hne]; exact hc
  · have refl : Local cwd x.path fs fs := ⟨fun _ h => absurd rfl h, fun _ _ _ h => h⟩
    have hdirs := fun (h : (PathBuf.parse (joinPath x.path)).comps ≠ []) =>
      local_dirs cwd x.path fs (k := (PathBuf.parse (joinPath x.path)).comps.length - 1) (by have := List.length_pos_iff.mpr h; omega)
    rw [← List.dropLast_eq_take] at hdirs
    unfold FileWriter.writeToFilesystem at hr ⊢
    simp only [] at hr ⊢
    generalize PathBuf.parse (joinPath x.path) = p at hr hdirs ⊢
    split at hr
    · rename_i h
      rw [if_pos h]
      exact refl
    · rename_i h
      rw [if_neg h]
      have := hdirs h
      revert hr this
      rcases fs.createDirAll (p.base cwd) p.comps.dropLast with ⟨r1, fs1⟩
      intro hr this
      cases r1 with
      | ok u =>
        simp only [] at hr this ⊢
        cases ho : fs1.openCreate cwd p with
        | ok a => rw [ho] at hr; exact absurd rfl hr
        | err e => exact this
        | panic => exact this
        | hang => exact this
      | err e => exact this
      | panic => exact this
      | hang => exact this

theorem local_torn {cwd : Loc} {fs fs' : FS} {x : FileWriter} (h : TornPart cwd fs x fs') : Local cwd x.path fs fs' := by
  cases h with
  | dirs k hk => exact local_dirs cwd x.path fs hk
  | data n => exact local_write cwd fs { x with piece := x.piece.take n }

/-- Paths and disk stay receptive when something is done for a file that is not in the way. -/
theorem receptive_local {cwd : Loc} {fs fs' : FS} {files : List File} {pl : Nat} {path : List Bytes} (h : Receptive cwd fs files pl) (hl : Local cwd path fs fs')
    (hw : ∀ k f, Touched files pl k f → ¬ Way cwd f.path (place cwd path) ∧ ¬ Way cwd path (place cwd f.path)) : Receptive cwd fs' files pl := by
  refine ⟨h.servable, h.ways, fun k f ht l c hwl hc => ?_, fun k f ht hd => ?_⟩
  · exact h.noFile k f ht l c hwl (hl.files l c (fun e => (hw k f ht).1 (e ▸ hwl)) hc)
  · by_cases he : fs' (place cwd f.path) = fs (place cwd f.path)
    · exact h.noDir k f ht (he ▸ hd)
    · rcases hl.changes _ he with hw' | ⟨-, c, hc⟩
      · exact (hw k f ht).2 hw'
      · rw [hd] at hc; cases hc

theorem receptive_same {cwd : Loc} {fs fs' : FS} {files : List File} {pl : Nat} (h : Receptive cwd fs files pl)
    (hw : ∀ k f, Touched files pl k f → (∀ l, Way cwd f.path l → ∀ c, fs' l = some (.file c) → fs l = some (.file c)) ∧ (fs' (place cwd f.path) = some .dir → fs (place cwd f.path) = some .dir)) :
    Receptive cwd fs' files pl :=
  ⟨h.servable, h.ways, fun k f ht l c hl hc => h.noFile k f ht l c hl ((hw k f ht).1 l hl c hc), fun k f ht hd => h.noDir k f ht ((hw k f ht).2 hd)⟩

theorem receptive_log {cwd : Loc} {info : Info} {fs fs' : FS} (hp : Passable cwd info) (h : Receptive cwd fs (listedFiles info) info.pieceLength)
    (hs : ∀ x, x ≠ cwd ++ logPath.comps → fs' x = fs x) : Receptive cwd fs' (listedFiles info) info.pieceLength := by
  rw [logPath_comps] at hs
  refine receptive_same h fun k f ht => ⟨fun l hl c hc => ?_, fun hd => ?_⟩
  · rw [← hs l (fun e => (hp k f ht).2.2.1 (e ▸ hl))]; exact hc
  · rw [← hs _ (hp k f ht).1]; exact hd

/-- A torrent of the process, seen from the torrent with the metadata `info`: if it is that one, its writer is alive and its parts are those of files that are written to. -/
def SlotUp (w : World) (info : Info) (d : Bytes) (s : Slot) : Prop :=
  (Fresh s.sys ∧ 2 < s.sys.torrent.infoHash.length ∧ s.sys.writerUp = true ∧ s.parts = none) ∨
  ∃ info' n, Known w info' n s.sys ∧ Unblocked w.cwd info info' ∧
    (∀ ws, s.parts = some ws → ∀ x ∈ ws, ∃ f ∈ listedFiles info', f.path = x.path) ∧
    (info' = info → s.sys.writerUp = true ∧ ∀ ws, s.parts = some ws → ∃ ps : List Part, (∀ p ∈ ps, Due (listedFiles info) d info.pieceLength p) ∧ ws = ps.map (toWriter (listedFiles info)))

theorem act_receptive {w : World} {info : Info} {d : Bytes} {fs : FS} {s : Slot} {t : Sys} (hp : Passable w.cwd info)
    (h : SlotUp w info d s) (hst : Step w { s.sys with fs := fs } t) (hw : t.written = s.sys.written)
    (hr : Receptive w.cwd fs (listedFiles info) info.pieceLength) : Receptive w.cwd t.fs (listedFiles info) info.pieceLength := by
  cases hst with
  | collect p rest hd hm hi tcp f peerId room collected fs' hnh hc =>
    have hl : 2 < s.sys.torrent.infoHash.length := by
      rcases h with h | ⟨info', n, hk, -⟩
      · exact h.2.1
      · have := hk.hasInfo
        rw [hi] at this
        cases this
    have := (collectInfo_tried (ε := Unit) w.build w.cwd fs (dialOf p.endpoint tcp) f peerId hl room).1
    rw [hc] at this
    refine receptive_same hr fun k f ht => ⟨fun l hl' c hc' => ?_, fun hd => ?_⟩
    · by_cases e1 : l = w.cwd ++ [b!"downloads"]
      · subst e1
        rcases this.dir with e | ⟨-, e⟩
        · exact e.symm.trans hc'
        · cases e.symm.trans hc'
      · by_cases e2 : l = cacheLoc w.cwd s.sys.torrent.infoHash
        · subst e2
          exact absurd hl' ((hp k f ht).2.2.2 _)
        · exact (this.elsewhere l e1 e2).symm.trans hc'
    · by_cases e2 : place w.cwd f.path = cacheLoc w.cwd s.sys.torrent.infoHash
      · rw [e2] at hd ⊢
        rcases this.file with e | ⟨-, c, e⟩
        · exact e.symm.trans hd
        · cases e.symm.trans hd
      · exact (this.elsewhere _ (hp k f ht).2.1 e2).symm.trans hd
  | write r ready hu hr res fs' hwr =>
    have := congrArg List.length hw
    simp at this
  | announce => exact hr
  | take => exact hr
  | finishOk => exact hr
  | finishErr => exact hr
  | finishPanic => exact hr
  | success => exact hr
  | failed => exact hr
  | found => exact hr

theorem due_way {cwd : Loc} {fs : FS} {files : List File} {d : Bytes} {pl : Nat} {p : Part} (h : Receptive cwd fs files pl) (hp : Due files d pl p) :
    ∀ k f, Touched files pl k f → ¬ Way cwd f.path (place cwd (toWriter files p).path) ∧ ¬ Way cwd (toWriter files p).path (place cwd f.path) := by
  obtain ⟨-, g, hg⟩ := hp
  intro k f hf
  have : (toWriter files p).path = g.path := by simp [toWriter, hg.1]
  rw [this]
  exact ⟨h.ways _ _ g f hg hf, h.ways _ _ f g hf hg⟩

/-- What is done for the next part of a torrent. -/
theorem slot_receptive {w : World} {info : Info} {d : Bytes} {fs fs' : FS} {s : Slot} (hr : Receptive w.cwd fs (listedFiles info) info.pieceLength)
    (h : SlotUp w info d s) {x : FileWriter} {xs : List FileWriter} (hp : s.parts = some (x :: xs)) (hl : Local w.cwd x.path fs fs') :
    Receptive w.cwd fs' (listedFiles info) info.pieceLength := by
  rcases h with ⟨-, -, -, e⟩ | ⟨info', n, hk, hb, hpaths, hown⟩
  · rw [hp] at e; cases e
  · refine receptive_local hr hl ?_
    rcases hb with e | hb
    · obtain ⟨ps, h1, h2⟩ := (hown e).2 _ hp
      cases ps with
      | nil => cases h2
      | cons q ps =>
        simp only [List.map_cons, List.cons.injEq] at h2
        rw [h2.1]
        exact due_way hr (h1 q (List.mem_cons_self ..))
    · obtain ⟨f, hf, e⟩ := hpaths _ hp x (by simp)
      intro k g hg
      rw [← e]
      exact hb k g hg f hf

theorem torn_receptive {w : World} {info : Info} {d : Bytes} {slots : List Slot} {fs fs' : FS} (ht : TornAll w.cwd fs slots fs') :
    (∀ s ∈ slots, SlotUp w info d s) → Receptive w.cwd fs (listedFiles info) info.pieceLength → Receptive w.cwd fs' (listedFiles info) info.pieceLength := by
  induction ht with
  | nil => exact fun _ h => h
  | skip h ih => exact fun hi => ih fun s hs => hi s (List.mem_cons_of_mem _ hs)
  | part hx h1 h ih =>
    intro hi hr
    exact ih (fun s hs => hi s (List.mem_cons_of_mem _ hs)) (slot_receptive hr (hi _ (List.mem_cons_self ..)) hx (local_torn h1))

theorem slotUp_set {w : World} {info : Info} {d : Bytes} {slots : List Slot} {k : Nat} {s' : Slot}
    (h : ∀ s ∈ slots, SlotUp w info d s) (hs : SlotUp w info d s') : ∀ s ∈ slots.set k s', SlotUp w info d s := by
  intro s hmem
  rcases List.mem_or_eq_of_mem_set hmem with hm | rfl
  · exact h s hm
  · exact hs

theorem slotUp_step {w : World} {info : Info} {d : Bytes} {P P' : Proc} (hd : Describes w.sha info d) (h64 : d.length < 2 ^ 64) (hp : Passable w.cwd info)
    (hr : Receptive w.cwd P.fs (listedFiles info) info.pieceLength) (h : ∀ s ∈ P.slots, SlotUp w info d s) (hst : PStep w P P')
    (hq : ∀ s ∈ P'.slots, ∀ i, s.sys.torrent.info = some i → Unblocked w.cwd info i) :
    ForgedP w info d P' ∨ (∀ s ∈ P'.slots, SlotUp w info d s) ∧ Receptive w.cwd P'.fs (listedFiles info) info.pieceLength := by
  cases hst with
  | start hl fs he => exact .inr ⟨h, receptive_log hp hr (createLog_only he)⟩
  | log n hl line => exact .inr ⟨h, receptive_log hp hr (fun x hx => writeAt_other _ _ _ hx)⟩
  | add hl body infoHash ha =>
    refine .inr ⟨?_, hr⟩
    intro s hs
    rcases List.mem_append.mp hs with hs | hs
    · exact h s hs
    · rw [List.mem_singleton.mp hs]
      refine .inl ⟨fresh_init _ _, ?_, rfl, rfl⟩
      have := addMagnet_length ha
      show 2 < infoHash.length
      omega
  | act k s t hk hst hw =>
    have hmem := List.mem_of_getElem? hk
    have hs := h s hmem
    obtain ⟨a1, a2, more, a3⟩ := act_writer hst hw
    have hlt : k < P.slots.length := (List.getElem?_eq_some_iff.mp hk).1
    have hmem' : (⟨t, s.parts⟩ : Slot) ∈ P.slots.set k ⟨t, s.parts⟩ := List.mem_set hlt _
    refine .inr ⟨slotUp_set h ?_, act_receptive hp hs hst hw hr⟩
    rcases hs with ⟨h1, h2, h3, h4⟩ | ⟨info', n, h1, h2, h3, h4⟩
    · rcases fresh_step (fresh_fs h1 P.fs) hst with hf | ⟨info', n, hk'⟩
      · refine .inl ⟨hf, ?_, ?_, h4⟩
        · rw [a2]; exact h2
        · rw [a1]; exact h3
      · refine .inr ⟨info', n, hk', hq _ hmem' _ hk'.hasInfo, ?_, fun e => ⟨a1.trans h3, ?_⟩⟩ <;>
        · intro ws hws
          simp only [h4] at hws
          cases hws
    · exact .inr ⟨info', n, known_step (known_fs h1 P.fs) hst, h2, h3, fun e => ⟨a1.trans (h4 e).1, (h4 e).2⟩⟩
  | begin k s r ready info' ws hk hpn hu hrd hi hws =>
    rcases h s (List.mem_of_getElem? hk) with ⟨h1, -⟩ | ⟨info'', n, h1, h2, h3, h4⟩
    · rw [h1.info] at hi; cases hi
    · have e : info'' = info' := by have := h1.hasInfo; rw [hi] at this; cases this; rfl
      subst e
      have hpaths : ∀ ws', some ws = some ws' → ∀ x ∈ ws', ∃ f ∈ listedFiles info'', f.path = x.path := by
        intro ws' hws'
        cases hws'
        exact paths_listed h1 hrd hws
      by_cases e : info'' = info
      · subst e
        rcases own_begin_any h1 hd h64 hrd with ⟨c1, c2⟩ | ⟨ps, c2, c3⟩
        · exact .inl ⟨r, List.mem_append_right _ (List.mem_singleton.mpr rfl), c1, c2⟩
        · refine .inr ⟨slotUp_set h (.inr ⟨info'', n, h1, h2, hpaths, fun _ => ⟨hu, fun ws' hws' => ?_⟩⟩), hr⟩
          cases hws'
          rw [hws] at c3
          cases c3
          exact ⟨ps, due_parts hd.total c2, rfl⟩
      · exact .inr ⟨slotUp_set h (.inr ⟨info'', n, h1, h2, hpaths, fun e' => absurd e' e⟩), hr⟩
  | beginCrash k s r ready info' hk hpn hu hrd hi hws =>
    rcases h s (List.mem_of_getElem? hk) with ⟨h1, -⟩ | ⟨info'', n, h1, h2, h3, h4⟩
    · rw [h1.info] at hi; cases hi
    · have e : info'' = info' := by have := h1.hasInfo; rw [hi] at this; cases this; rfl
      subst e
      have hk' : Known w info'' n (s.done r ready false).sys := known_write h1 hrd s.sys.fs false
      by_cases e : info'' = info
      · subst e
        rcases own_begin_any h1 hd h64 hrd with ⟨c1, c2⟩ | ⟨ps, c2, c3⟩
        · exact .inl ⟨r, List.mem_append_right _ (List.mem_singleton.mpr rfl), c1, c2⟩
        · rw [hws] at c3
          cases c3
      · exact .inr ⟨slotUp_set h (.inr ⟨info'', n, hk', h2, fun ws' hws' => (by cases hws'), fun e' => absurd e' e⟩), hr⟩
  | part k s x xs fs hk hpn hwr =>
    have hmem := List.mem_of_getElem? hk
    have hr' := slot_receptive hr (h s hmem) hpn (local_write w.cwd P.fs x)
    rw [hwr] at hr'
    refine .inr ⟨slotUp_set h ?_, hr'⟩
    rcases h s hmem with ⟨-, -, -, e⟩ | ⟨info', n, h1, h2, h3, h4⟩
    · rw [hpn] at e; cases e
    · refine .inr ⟨info', n, h1, h2, ?_, fun e => ⟨(h4 e).1, fun ws hws => ?_⟩⟩
      · intro ws hws y hy
        cases hws
        exact h3 _ hpn y (List.mem_cons_of_mem _ hy)
      · cases hws
        obtain ⟨ps, b1, b2⟩ := (h4 e).2 _ hpn
        cases ps with
        | nil => cases b2
        | cons q ps =>
          simp only [List.map_cons, List.cons.injEq] at b2
          exact ⟨ps, fun p hp => b1 p (List.mem_cons_of_mem _ hp), b2.2⟩
  | partCrash k s x xs fs r ready hk hpn hrd hwr =>
    have hmem := List.mem_of_getElem? hk
    have hr' := slot_receptive hr (h s hmem) hpn (local_write w.cwd P.fs x)
    rw [hwr] at hr'
    refine .inr ⟨slotUp_set h ?_, hr'⟩
    rcases h s hmem with ⟨-, -, -, e⟩ | ⟨info', n, h1, h2, h3, h4⟩
    · rw [hpn] at e; cases e
    · refine .inr ⟨info', n, known_write h1 hrd s.sys.fs false, h2, fun ws hws => (by cases hws), fun e => ?_⟩
      obtain ⟨ps, b1, b2⟩ := (h4 e).2 _ hpn
      cases ps with
      | nil => cases b2
      | cons q ps =>
        simp only [List.map_cons, List.cons.injEq] at b2
        obtain ⟨fs', e', -⟩ := step_place (ε := Unit) hr (b1 q (List.mem_cons_self ..))
        rw [← b2.1, hwr] at e'
        cases e'
  | «end» k s r ready hk hpn hrd =>
    have hmem := List.mem_of_getElem? hk
    refine .inr ⟨slotUp_set h ?_, hr⟩
    rcases h s hmem with ⟨-, -, -, e⟩ | ⟨info', n, h1, h2, h3, h4⟩
    · rw [hpn] at e; cases e
    · exact .inr ⟨info', n, known_write h1 hrd s.sys.fs true, h2, fun ws hws => (by cases hws), fun e => ⟨rfl, fun ws hws => (by cases hws)⟩⟩
  | stop order ho fs ht =>
    exact .inr ⟨fun s hs => (by cases hs), torn_receptive ht (fun s hs => h s (ho.mem_iff.mp hs)) hr⟩

theorem slotUp_steps {w : World} {info : Info} {d : Bytes} {P P' : Proc} (hd : Describes w.sha info d) (h64 : d.length < 2 ^ 64) (hp : Passable w.cwd info)
    (hr : Receptive w.cwd P.fs (listedFiles info) info.pieceLength) (h : ∀ s ∈ P.slots, SlotUp w info d s) (hst : PSteps w (Unblocked w.cwd info) P P') :
    ForgedP w info d P' ∨ (∀ s ∈ P'.slots, SlotUp w info d s) ∧ Receptive w.cwd P'.fs (listedFiles info) info.pieceLength := by
  induction hst with
  | refl => exact .inr ⟨h, hr⟩
  | tail hs hst hq ih =>
    rcases ih with ih | ⟨i1, i2⟩
    · exact .inl (forgedP_step ih hst)
    · exact slotUp_step hd h64 hp i2 i1 hst hq

/-! ### C69 -/

/-- C69, whatever the paths are: if paths and disk are receptive before the process is started first, they stay so and the writer of the torrent never dies, however often the process is
stopped and started again, as long as no file of another torrent is in the place of a directory that is needed, or the other way round; or a collision has been exhibited. Missing: files or
directories in the places of the log or of metadata. -/
theorem C69_survives_partial {w : World} {info : Info} {d : Bytes} {fs : FS} {P : Proc} (hd : Describes w.sha info d) (h64 : d.length < 2 ^ 64) (hp : Passable w.cwd info)
    (hr : Receptive w.cwd fs (listedFiles info) info.pieceLength) (h : PSteps w (Unblocked w.cwd info) (Proc.init fs) P) :
    (∃ r, (info, r) ∈ P.taken ∧ Collision w.sha r.piece (piece d info.pieceLength r.idx)) ∨
    Receptive w.cwd P.fs (listedFiles info) info.pieceLength ∧ ∀ s ∈ P.slots, s.sys.torrent.info = some info → s.sys.writerUp = true := by
  rcases slotUp_steps hd h64 hp hr (fun s hs => by cases hs) h with ⟨r, hr, -, hc⟩ | ⟨h1, h2⟩
  · exact .inl ⟨r, hr, hc⟩
  · refine .inr ⟨h2, fun s hs hi => ?_⟩
    rcases h1 s hs with ⟨h1, -⟩ | ⟨info', n, h1, -, -, h4⟩
    · rw [h1.info] at hi; cases hi
    · exact (h4 (by rw [h1.hasInfo] at hi; exact Option.some.inj hi)).1

/-! ### C111, C112 -/

/-- C111, whatever the paths are: in every fair run in which downloads fail finitely often, no worker of the torrent dies and its thread does not get stuck, a torrent with metadata that starts
gets to a state in which its writer has died, or its files are right from then on just if files in one place are the same and no longer file was there before. Missing: dead
workers (`C111_refuted`), a thread that gets stuck (C83), files in the places of the log, of metadata or of those of other torrents. -/
theorem C111_either_partial {w : World} {info : Info} {d : Bytes} {fs : FS} {n : Nat} {run : Nat → App} (hd : Describes w.sha info d) (h64 : d.length < 2 ^ 64)
    (hsp : Spared w.cwd info) (hpos : 0 < d.length) (h : Run w (Elsewhere w.cwd info) fs n run) {k : Nat} (hf : Fair run k) (hfree : ∀ i, (run i).Free k) {s : Slot}
    (hk : (run 0).proc.slots[k]? = some s) (hi : s.sys.torrent.info = some info) (hs : Starts s.sys) {B : Nat}
    (hB : ∀ i t, (run i).proc.slots[k]? = some t → downloadsFailed t.sys ≤ B) (hL : ∀ i t, (run i).proc.slots[k]? = some t → t.sys.lost = []) :
    ∃ i, ∀ j, i ≤ j → (∃ r, (info, r) ∈ (run j).proc.taken ∧ Collision w.sha r.piece (piece d info.pieceLength r.idx)) ∨
      (∃ t, (run j).proc.slots[k]? = some t ∧ t.sys.torrent.info = some info ∧ t.sys.writerUp = false) ∨
      (FilesRight (run j).proc.fs [] (placedFiles w.cwd (listedFiles info)) d ↔ Agreeing w.cwd (listedFiles info) d ∧ SameLength w.cwd (listedFiles info) ∧
        NoneLonger fs [] (placedFiles w.cwd (listedFiles info))) := by
  obtain ⟨i, hrest⟩ := comes_to_rest h hf hfree hk hi hB
  refine ⟨i, fun j hj => ?_⟩
  obtain ⟨t, h1, h2, h3, h4, h5, h6, h7⟩ := hrest j hj
  have hm := List.mem_of_getElem? h1
  obtain ⟨c, hkn⟩ := among_known (C84_among (run_asteps h j) hm) h2
  have hc := known_count hkn hd h64
  have hcw : c = wrappedCount info := by
    have h1 := (C84_exact (run_asteps h j) hm h2).length_eq
    have h2 := hkn.perm.length_eq
    rw [h1, List.length_range, List.length_range] at h2
    exact h2.symm
  have hcp : 0 < c := by
    rw [hc]
    exact Nat.lt_of_le_of_lt (Nat.zero_le _) (lt_count hd.pieceLength hpos)
  cases hup : t.sys.writerUp with
  | false => exact .inr (.inl ⟨t, h1, h2, hup⟩)
  | true =>
    exact (C84_anywhere_partial hd h64 hsp (run_asteps h j) hm h2 (h3 hs (by omega)) (by simp [flight, h4, h5, h6, reports]) (h7 hup) (hL j t h1) hup).imp_right .inr

/-- C111, whatever the paths are, with paths and a disk that the writer survives. Missing: as for `C111_either_partial`. -/
theorem C111_anywhere_partial {w : World} {info : Info} {d : Bytes} {fs : FS} {n : Nat} {run : Nat → App} (hd : Describes w.sha info d) (h64 : d.length < 2 ^ 64)
    (hsp : Spared w.cwd info) (hp : Passable w.cwd info) (hr : Receptive w.cwd fs (listedFiles info) info.pieceLength) (hpos : 0 < d.length)
    (h : Run w (fun i => Elsewhere w.cwd info i ∧ Unblocked w.cwd info i) fs n run) {k : Nat} (hf : Fair run k) (hfree : ∀ i, (run i).Free k) {s : Slot}
    (hk : (run 0).proc.slots[k]? = some s) (hi : s.sys.torrent.info = some info) (hs : Starts s.sys) {B : Nat}
    (hB : ∀ i t, (run i).proc.slots[k]? = some t → downloadsFailed t.sys ≤ B) (hL : ∀ i t, (run i).proc.slots[k]? = some t → t.sys.lost = []) :
    ∃ i, ∀ j, i ≤ j → (∃ r, (info, r) ∈ (run j).proc.taken ∧ Collision w.sha r.piece (piece d info.pieceLength r.idx)) ∨
      (FilesRight (run j).proc.fs [] (placedFiles w.cwd (listedFiles info)) d ↔ Agreeing w.cwd (listedFiles info) d ∧ SameLength w.cwd (listedFiles info) ∧
        NoneLonger fs [] (placedFiles w.cwd (listedFiles info))) := by
  have h' : Run w (Elsewhere w.cwd info) fs n run := ⟨ASteps.mono (fun _ q => q.1) h.reached, h.on, h.step, fun i s hs info hi => (h.infos i s hs info hi).1⟩
  obtain ⟨i, hall⟩ := C111_either_partial hd h64 hsp hpos h' hf hfree hk hi hs hB hL
  refine ⟨i, fun j hj => ?_⟩
  rcases hall j hj with hc | ⟨t, h1, h2, h3⟩ | hr'
  · exact .inl hc
  · rcases C69_survives_partial hd h64 hp hr (proc_steps (ainv_init fs n) (ASteps.mono (fun _ q => q.2) (run_asteps h j))) with hc | ⟨-, hu⟩
    · exact .inl hc
    · rw [hu t (List.mem_of_getElem? h1) h2] at h3
      cases h3
  · exact .inr hr'

/-- C112, whatever the paths are: as `C112_complete_partial`. Missing: as for `C111_either_partial`. -/
theorem C112_anywhere_partial {w : World} {info : Info} {d : Bytes} {fs : FS} {n : Nat} {run : Nat → App} (hd : Describes w.sha info d) (h64 : d.length < 2 ^ 64)
    (hsp : Spared w.cwd info) (hp : Passable w.cwd info) (hr : Receptive w.cwd fs (listedFiles info) info.pieceLength) (hpos : 0 < d.length)
    (h : Run w (fun i => Elsewhere w.cwd info i ∧ Unblocked w.cwd info i) fs n run) {k : Nat} (hf : Fair run k) (hfree : ∀ i, (run i).Free k) {i m : Nat} (hg : GetsAt run k i m info)
    {i' : Nat} {s : Slot} (hs : (run i').proc.slots[k]? = some s) (h10 : 10 < s.sys.told.length) (hlast : m < s.sys.told.length) {B : Nat}
    (hB : ∀ i t, (run i).proc.slots[k]? = some t → downloadsFailed t.sys ≤ B) (hL : ∀ i t, (run i).proc.slots[k]? = some t → t.sys.lost = []) :
    ∃ i, ∀ j, i ≤ j → (∃ r, (info, r) ∈ (run j).proc.taken ∧ Collision w.sha r.piece (piece d info.pieceLength r.idx)) ∨
      (FilesRight (run j).proc.fs [] (placedFiles w.cwd (listedFiles info)) d ↔ Agreeing w.cwd (listedFiles info) d ∧ SameLength w.cwd (listedFiles info) ∧
        NoneLonger fs [] (placedFiles w.cwd (listedFiles info))) := by
  have hcount : 0 < wrappedCount info := by
    obtain ⟨s, s', -, -, hs', hi, -⟩ := id hg
    have hmem := List.mem_of_getElem? hs'
    obtain ⟨c, hkn⟩ := among_known (C84_among (run_asteps h _) hmem) hi
    have h1 := (C84_exact (run_asteps h _) hmem hi).length_eq
    have h2 := hkn.perm.length_eq
    rw [h1, List.length_range, List.length_range] at h2
    rw [h2, known_count hkn hd h64]
    exact Nat.lt_of_le_of_lt (Nat.zero_le _) (lt_count hd.pieceLength hpos)
  obtain ⟨l, a, hl⟩ := C112_starts h hf hfree hg hcount
  obtain ⟨t, h1, h2, h3, h4⟩ := hl (a + i') (by omega)
  have hle : s.sys.told.length ≤ l.length := by
    obtain ⟨c, hc⟩ := told_later h (by omega : i' ≤ a + i') hs h1
    rw [← h3, hc, List.length_append]
    omega
  obtain ⟨b, hb⟩ := C111_anywhere_partial hd h64 hsp hp hr hpos (Run.shift h (a + i')) (Fair.shift hf (a + i')) (fun j => hfree _) (k := k) (s := t) h1 h2
    (.inl (h4.mpr ⟨by omega, by omega⟩)) (fun i t ht => hB _ t ht) (fun i t ht => hL _ t ht)
  refine ⟨a + i' + b, fun j hj => ?_⟩
  obtain ⟨e, rfl⟩ := Nat.exists_eq_add_of_le hj
  have := hb (b + e) (by omega)
  simp only [← Nat.add_assoc] at this
  exact this

/-- C112, whatever the paths are, from what trackers name: as `C112_named_partial`. Missing: as for `C111_either_partial`. -/
theorem C112_named_anywhere_partial {w : World} {info : Info} {d : Bytes} {fs : FS} {n : Nat} {run : Nat → App} (hd : Describes w.sha info d) (h64 : d.length < 2 ^ 64)
    (hsp : Spared w.cwd info) (hpass : Passable w.cwd info) (hr : Receptive w.cwd fs (listedFiles info) info.pieceLength) (hpos : 0 < d.length)
    (h : Run w (fun i => Elsewhere w.cwd info i ∧ Unblocked w.cwd info i) fs n run) (hp : Prompt run) {k : Nat} (hf : Fair run k) (hfree : ∀ i, (run i).Free k) {i m : Nat}
    (hg : GetsAt run k i m info)
    {i' : Nat} (h10 : 10 < (messagesTo k (run i').trackers.found).length) (hlast : m < (messagesTo k (run i').trackers.found).length) {B : Nat}
    (hB : ∀ i t, (run i).proc.slots[k]? = some t → downloadsFailed t.sys ≤ B) (hL : ∀ i t, (run i).proc.slots[k]? = some t → t.sys.lost = []) :
    ∃ i, ∀ j, i ≤ j → (∃ r, (info, r) ∈ (run j).proc.taken ∧ Collision w.sha r.piece (piece d info.pieceLength r.idx)) ∨
      (FilesRight (run j).proc.fs [] (placedFiles w.cwd (listedFiles info)) d ↔ Agreeing w.cwd (listedFiles info) d ∧ SameLength w.cwd (listedFiles info) ∧
        NoneLonger fs [] (placedFiles w.cwd (listedFiles info))) := by
  obtain ⟨a, ha, hall⟩ := C112_delivered h hp i'
  obtain ⟨s, -, hs, -⟩ := id hg
  obtain ⟨t, ht⟩ := run_slot_at h (by omega : i ≤ a + i) hs
  obtain ⟨more, hm⟩ := hall (a + i) (by omega) k t ht
  have hl := congrArg List.length hm
  rw [List.length_append] at hl
  exact C112_anywhere_partial hd h64 hsp hpass hr hpos h hf hfree hg ht (by omega) (by omega) hB hL

/-! ### The hypotheses can be met -/

theorem oddPaths_cases {sha : Bytes → Bytes} {k : Nat} {f : File} (hf : (listedFiles (oddPaths sha))[k]? = some f) :
    k = 0 ∧ f = ⟨[b!"x/..", b!"a"], 1⟩ ∨ k = 1 ∧ f = ⟨[b!"", b!"z"], 1⟩ ∨ k = 2 ∧ f = ⟨[b!"a"], 1⟩ := by
  rcases k with _ | _ | _ | k
  · exact .inl ⟨rfl, (Option.some.inj hf).symm⟩
  · exact .inr (.inl ⟨rfl, (Option.some.inj hf).symm⟩)
  · exact .inr (.inr ⟨rfl, (Option.some.inj hf).symm⟩)
  · cases hf

theorem oddPaths_places {sha : Bytes → Bytes} {f : File} (hf : f ∈ listedFiles (oddPaths sha)) :
    (place [b!"h"] f.path = [b!"h", b!"a"] ∨ place [b!"h"] f.path = [b!"z"]) ∧ ∀ l, Way [b!"h"] f.path l → l = [b!"h", b!"x"] ∨ l = [b!"h"] := by
  have way : ∀ (path : List Bytes) (l : Loc), Way [b!"h"] path l → l ∈ (List.range ((PathBuf.parse (pathText path)).comps.length - 1)).map fun i =>
      lex ((PathBuf.parse (pathText path)).base [b!"h"]) ((PathBuf.parse (pathText path)).comps.take (i + 1)) := by
    rintro path l ⟨q, c, n, r, h1, -, rfl⟩
    rw [List.mem_map]
    refine ⟨q.length, List.mem_range.mpr (by rw [h1]; simp), ?_⟩
    rw [h1, show q ++ c :: n :: r = (q ++ [c]) ++ n :: r by simp, List.take_left' (by simp)]
  obtain ⟨k, hk⟩ := List.getElem?_of_mem hf
  rcases oddPaths_cases hk with ⟨-, rfl⟩ | ⟨-, rfl⟩ | ⟨-, rfl⟩
  · refine ⟨.inl (by decide +kernel), fun l hl => ?_⟩
    have := way _ l hl
    rw [show (List.range ((PathBuf.parse (pathText [b!"x/..", b!"a"])).comps.length - 1)).map (fun i =>
      lex ((PathBuf.parse (pathText [b!"x/..", b!"a"])).base [b!"h"]) ((PathBuf.parse (pathText [b!"x/..", b!"a"])).comps.take (i + 1))) = [[b!"h", b!"x"], [b!"h"]] by decide +kernel] at this
    simpa using this
  · refine ⟨.inr (by decide +kernel), fun l hl => ?_⟩
    have := way _ l hl
    rw [show (List.range ((PathBuf.parse (pathText [b!"", b!"z"])).comps.length - 1)).map (fun i =>
      lex ((PathBuf.parse (pathText [b!"", b!"z"])).base [b!"h"]) ((PathBuf.parse (pathText [b!"", b!"z"])).comps.take (i + 1))) = [] by decide +kernel] at this
    cases this
  · refine ⟨.inl (by decide +kernel), fun l hl => ?_⟩
    have := way _ l hl
    rw [show (List.range ((PathBuf.parse (pathText [b!"a"])).comps.length - 1)).map (fun i =>
      lex ((PathBuf.parse (pathText [b!"a"])).base [b!"h"]) ((PathBuf.parse (pathText [b!"a"])).comps.take (i + 1))) = [] by decide +kernel] at this
    cases this

theorem oddPaths_spared (sha : Bytes → Bytes) : Spared [b!"h"] (oddPaths sha) := by
  intro f hf _
  rcases (oddPaths_places hf).1 with e | e <;> rw [e] <;> exact ⟨by decide, fun name h => by simp at h⟩

theorem oddPaths_passable (sha : Bytes → Bytes) : Passable [b!"h"] (oddPaths sha) := by
  intro k f ht
  obtain ⟨e, hw⟩ := oddPaths_places (List.mem_of_getElem? ht.1)
  refine ⟨?_, ?_, fun h => ?_, fun name h => ?_⟩
  · rcases e with e | e <;> rw [e] <;> decide
  · rcases e with e | e <;> rw [e] <;> decide
  · rcases hw _ h with e | e <;> revert e <;> decide
  · rcases hw _ h with e | e <;> simp at e

/-- C69_survives_partial, C111_either_partial and C111_anywhere_partial: in every world (with 20-byte hashes and such a working directory) there is a run in which a torrent with such paths is
got. -/
example (w : World) (hsha : ∀ b, (w.sha b).length = 20) (hcwd : w.cwd = [b!"h"]) : ∃ run j,
    Run w (fun i => Elsewhere w.cwd (oddPaths w.sha) i ∧ Unblocked w.cwd (oddPaths w.sha) i) (cachedFs w.cwd (List.replicate 20 17) (oddPaths w.sha)) 1 run ∧
    ((∃ r, (oddPaths w.sha, r) ∈ (run j).proc.taken ∧ Collision w.sha r.piece (piece [1, 2, 1] 3 r.idx)) ∨
      readFile (run j).proc.fs [b!"h", b!"a"] = some [1] ∧ readFile (run j).proc.fs [b!"z"] = some [2]) := by
  have hd := oddPaths_describes hsha
  obtain ⟨A, s, h1, h2, h3, h4, h5, h6, h7, h8, h9, h10⟩ := about_to_start_any w hd (by decide) (by decide) (oddPaths_typed w.sha)
    (Q := fun i => Elsewhere w.cwd (oddPaths w.sha) i ∧ Unblocked w.cwd (oddPaths w.sha) i) ⟨.inl rfl, .inl rfl⟩
  obtain ⟨run, r1, r2, r3, r4, r5⟩ := C111_served_runs hsha hd
    ⟨by decide, by show pieceCount 3 3 ≤ 2 ^ 32; decide, by show 3 * pieceCount 3 3 < 2 ^ 64; decide⟩ h1 h2 h3 h4 h5
  obtain ⟨j, hj⟩ := C111_anywhere_partial hd (by decide) (by rw [hcwd]; exact oddPaths_spared _) (by rw [hcwd]; exact oddPaths_passable _)
    (by rw [hcwd]; exact (C55_whole (ε := Unit) .debug [b!"h"] _ _ [1, 2, 1] 3 [0] rfl (by decide) (by decide) (by decide) (by
      intro i hi
      have : i < 1 := hi
      simp; omega)).1.mp (by rfl)) (by decide) r1 r3 r4 (by rw [r2]; exact h4) h5 h6 (B := 0)
    (fun i t ht => by rw [(r5 i t ht).1, h10]; exact Nat.le_refl _) (fun i t ht => by rw [(r5 i t ht).2, h7])
  have p0 : place w.cwd [b!"x/..", b!"a"] = [b!"h", b!"a"] := by rw [hcwd]; decide +kernel
  have p1 : place w.cwd [b!"", b!"z"] = [b!"z"] := by rw [hcwd]; decide +kernel
  have p2 : place w.cwd [b!"a"] = [b!"h", b!"a"] := by rw [hcwd]; decide +kernel
  refine ⟨run, j, r1, (hj j (Nat.le_refl _)).imp_right fun hiff => ?_⟩
  have hright := hiff.mpr ⟨?_, ?_, ?_⟩
  · exact ⟨by have := hright 0 _ (placed_get (f := ⟨[b!"x/..", b!"a"], 1⟩) rfl) (by show 0 < 1; decide); rw [p0] at this; exact this,
      by have := hright 1 _ (placed_get (f := ⟨[b!"", b!"z"], 1⟩) rfl) (by show 0 < 1; decide); rw [p1] at this; exact this⟩
  · intro i j f g hi hj he x hx hy
    have hx0 : x = 0 := by rcases oddPaths_cases hi with ⟨-, rfl⟩ | ⟨-, rfl⟩ | ⟨-, rfl⟩ <;> exact Nat.lt_one_iff.mp hx
    subst hx0
    rcases oddPaths_cases hi with ⟨rfl, rfl⟩ | ⟨rfl, rfl⟩ | ⟨rfl, rfl⟩ <;> rcases oddPaths_cases hj with ⟨rfl, rfl⟩ | ⟨rfl, rfl⟩ | ⟨rfl, rfl⟩ <;>
      first | rfl | (rw [p0, p1] at he; cases he) | (rw [p1, p0] at he; cases he) | (rw [p2, p1] at he; cases he) | (rw [p1, p2] at he; cases he)
  · intro f hf g hg _ _ _
    obtain ⟨i, hi⟩ := List.getElem?_of_mem hf
    obtain ⟨j, hj⟩ := List.getElem?_of_mem hg
    rcases oddPaths_cases hi with ⟨-, rfl⟩ | ⟨-, rfl⟩ | ⟨-, rfl⟩ <;> rcases oddPaths_cases hj with ⟨-, rfl⟩ | ⟨-, rfl⟩ | ⟨-, rfl⟩ <;> rfl
  · intro g hg _ c hcc
    obtain ⟨k, hk⟩ := List.getElem?_of_mem hg
    obtain ⟨f, hf, rfl⟩ := placed_get' hk
    simp only [readFile, List.nil_append] at hcc
    have hn : cachedFs w.cwd (List.replicate 20 17) (oddPaths w.sha) (place w.cwd f.path) = none := by
      rw [hcwd]
      rcases (oddPaths_places (List.mem_of_getElem? hf)).1 with e | e <;> rw [e, cachedFs, if_neg (by decide), if_neg (by decide +kernel)]
    rw [hn] at hcc
    cases hcc

/-- C112_anywhere_partial and C112_named_anywhere_partial: in every world there is such a run from an empty disk, after which a file of three bytes is there. -/
example (w : World) (hsha : ∀ b, (w.sha b).length = 20) : ∃ run j,
    Run w (fun i => Elsewhere w.cwd (threeBytes w.sha) i ∧ Unblocked w.cwd (threeBytes w.sha) i) (fun _ => none) 1 run ∧
    ((∃ r, (threeBytes w.sha, r) ∈ (run j).proc.taken ∧ Collision w.sha r.piece (piece [1, 2, 3] 2 r.idx)) ∨ readFile (run j).proc.fs (w.cwd ++ [b!"a"]) = some [1, 2, 3]) := by
  have hpl : ∀ f ∈ listedFiles (threeBytes w.sha), f = ⟨[b!"a"], 3⟩ := fun f hf => List.mem_singleton.mp hf
  have hc : (PathBuf.parse (pathText [b!"a"])) = ⟨false, [b!"a"], false⟩ := by decide +kernel
  have hp : place w.cwd [b!"a"] = w.cwd ++ [b!"a"] := by
    rw [place, hc]
    rfl
  have hway : ∀ l, ¬ Way w.cwd [b!"a"] l := by
    rintro l ⟨q, c, n, r, h, -⟩
    rw [hc] at h
    have := congrArg List.length h
    simp at this
    omega
  have hserv : Servable [b!"a"] := by
    rw [Servable, hc]
    exact ⟨⟨[], b!"a", rfl, by decide⟩, rfl, by decide⟩
  obtain ⟨L, hL, hall⟩ := three_request_any w hsha (Q := fun i => Elsewhere w.cwd (threeBytes w.sha) i ∧ Unblocked w.cwd (threeBytes w.sha) i) ⟨.inl rfl, .inl rfl⟩
  obtain ⟨run, h1, h2, h3, h4, h5, h6, h7⟩ := hall 0 (by omega)
  obtain ⟨s, s', hs, hn, hs', hi, -⟩ := id h5
  have htold := (h7 0 s hs).1
  have hm := congrArg List.length ((ainv_steps (run_asteps h1 0) (ainv_init _ _)).told 0 s hs)
  have hle : (messagesTo 0 ((run 0).trackers.found.take (run 0).delivered)).length ≤ (messagesTo 0 (run 0).trackers.found).length := by
    simp only [messagesTo, List.length_map]
    exact List.Sublist.length_le (List.Sublist.filter _ (List.take_sublist ..))
  obtain ⟨j, hj⟩ := C112_named_anywhere_partial (threeBytes_describes hsha) (by decide)
    (fun f hf _ => by
      rw [hpl f hf, hp]
      exact ⟨fun e => absurd (List.append_cancel_left e) (by decide), fun name e => by simpa using List.append_cancel_left e⟩)
    (fun k f ht => by
      rw [hpl f (List.mem_of_getElem? ht.1), hp]
      exact ⟨fun e => absurd (List.append_cancel_left e) (by decide), fun e => absurd (List.append_cancel_left e) (by decide), hway _, fun _ => hway _⟩)
    ⟨fun k f ht => by rw [hpl f (List.mem_of_getElem? ht.1)]; exact hserv,
      fun j k f g _ hg => by rw [hpl g (List.mem_of_getElem? hg.1)]; exact hway _,
      fun k f ht l c h => by rw [hpl f (List.mem_of_getElem? ht.1)] at h; exact absurd h (hway _),
      fun k f _ => by simp⟩
    (by decide) h1 h3 h2 h4 h5 (i' := 0) (by omega) (by omega) (B := 0)
    (fun i t ht => by rw [(h7 i t ht).2.1]; omega) (fun i t ht => (h7 i t ht).2.2)
  refine ⟨run, j, h1, (hj j (Nat.le_refl _)).imp_right fun hiff => ?_⟩
  have hone : ∀ (i : Nat) (f : File), (listedFiles (threeBytes w.sha))[i]? = some f → i = 0 := by
    intro i f h
    have := (List.getElem?_eq_some_iff.mp h).1
    exact Nat.lt_one_iff.mp this
  have hright := hiff.mpr ⟨?_, ?_, ?_⟩
  · have := hright 0 _ (placed_get (f := ⟨[b!"a"], 3⟩) rfl) (by show 0 < 3; decide)
    rw [hp] at this
    exact this
  · intro i j f g hi hj _ x _ _
    rw [hone i f hi, hone j g hj]
  · intro f hf g hg _ _ _
    rw [hpl f hf, hpl g hg]
  · intro g hg _ c hcc
    simp [readFile] at hcc

end RustBit
