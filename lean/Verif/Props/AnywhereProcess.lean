/-
C69 and C84 for files whose paths are made of anything: many torrents in one process that is stopped and started again at any moment.
-/
import Verif.Spec.AnywhereProcess
import Verif.Props.AnywhereDisk
import Verif.Props.AnywhereRun
import Verif.Props.Torrents
import Verif.Props.AnywhereRequest

namespace RustBit
open Spec

/-- No byte of the content that is in its place is lost or altered, and what is beyond the listed lengths stays. -/
structure KeepsBytes (cwd : Loc) (files : List File) (d : Bytes) (fs fs' : FS) : Prop where
  bytes : ∀ g, g < d.length → diskByte fs [] (placedFiles cwd files) g = d[g]? → diskByte fs' [] (placedFiles cwd files) g = d[g]?
  rest : SameLength cwd files → ∀ f ∈ files, 0 < f.length → restAt fs' cwd f = restAt fs cwd f

theorem keepsBytes_refl (cwd : Loc) (files : List File) (d : Bytes) (fs : FS) : KeepsBytes cwd files d fs fs := ⟨fun _ _ h => h, fun _ _ _ _ => rfl⟩

theorem keepsBytes_trans {cwd : Loc} {files : List File} {d : Bytes} {a b c : FS} (h1 : KeepsBytes cwd files d a b) (h2 : KeepsBytes cwd files d b c) :
    KeepsBytes cwd files d a c :=
  ⟨fun g hg h => h2.bytes g hg (h1.bytes g hg h), fun hS f hf hpos => (h2.rest hS f hf hpos).trans (h1.rest hS f hf hpos)⟩

/-- Changes that leave the places of the non-empty files alone. -/
theorem keepsBytes_quiet {cwd : Loc} {files : List File} {d : Bytes} {fs fs' : FS} (hlen : total files = d.length)
    (h : ∀ f ∈ files, 0 < f.length → (∀ n, fs (place cwd f.path) = some n → fs' (place cwd f.path) = some n) ∧
      (fs (place cwd f.path) = none → ∀ c, fs' (place cwd f.path) = some (.file c) → c = [])) : KeepsBytes cwd files d fs fs' := by
  refine ⟨fun g hg hb => ?_, fun _ f hf hpos => ?_⟩
  · obtain ⟨k, f, hf, h1, h2⟩ := file_at (by rw [hlen]; exact hg)
    have hx : g = fileStart files k + (g - fileStart files k) := by omega
    rw [hx] at hb hg ⊢
    obtain ⟨f', c, hf', hc, hr⟩ := (hasByte_iff hf (by omega) hg).mpr hb
    rw [hf] at hf'
    cases hf'
    exact (hasByte_iff hf (by omega) hg).mp ⟨f, c, hf, (h f (List.mem_of_getElem? hf) (by omega)).1 _ hc, hr⟩
  · obtain ⟨h1, h2⟩ := h f hf hpos
    rw [restAt, restAt, readFile, readFile]
    cases hc : fs (place cwd f.path) with
    | some n => rw [h1 n hc]
    | none =>
      cases hc' : fs' (place cwd f.path) with
      | none => rfl
      | some n =>
        cases n with
        | dir => rfl
        | file c => rw [h2 hc c hc']; simp

theorem keepsBytes_of_quiet {cwd : Loc} {files : List File} {d : Bytes} {fs fs' : FS} (hlen : total files = d.length) (h : Quiet fs fs') :
    KeepsBytes cwd files d fs fs' := keepsBytes_quiet hlen fun _ _ _ => h _

/-- Writing a part fails without doing harm, or changes the file in the place of its path. -/
theorem write_one {cwd : Loc} {fs : FS} (x : FileWriter) {r : Res Unit Unit} {fs' : FS} (h : (x.writeToFilesystem cwd fs : Res Unit Unit × FS) = (r, fs')) :
    Quiet fs fs' ∨ r = .ok () ∧ fs' (place cwd x.path) = some (.file (pwrite ((readFile fs (place cwd x.path)).getD []) x.start x.piece)) ∧
      ∀ l, l ≠ place cwd x.path → (∀ n, fs l = some n → fs' l = some n) ∧ (fs l = none → ∀ c, fs' l = some (.file c) → c = []) := by
  by_cases hr : r = .ok ()
  · subst hr
    obtain ⟨h1, h2, h3, h4⟩ := writable_place.mp (writeToFilesystem_ok_iff.mp (by rw [h]))
    obtain ⟨fs1, e, k1, k2, k3, -⟩ := writeToFilesystem_place (ε := Unit) h1 h2 h3 h4
    rw [h] at e
    cases e
    refine .inr ⟨rfl, k1, fun l hl => ?_⟩
    by_cases hw : Way cwd x.path l
    · rw [k2 l hw]
      refine ⟨fun n hn => ?_, fun _ c hc => by cases hc⟩
      cases n with
      | dir => rfl
      | file c => exact absurd hn (h3 l c hw)
    · rw [k3 l hw hl]
      exact ⟨fun _ h => h, fun h c hc => by rw [h] at hc; cases hc⟩
  · left
    rw [← writeFaulty_sound (ev := ⟨none, true, some x.piece.length⟩) rfl rfl rfl (Nat.le_refl _)] at h
    exact (writeFaulty_fails h hr).2

/-- Another torrent writes a part. -/
theorem keepsBytes_other {cwd : Loc} {files : List File} {d : Bytes} {fs : FS} {x : FileWriter} (hlen : total files = d.length)
    (ha : ∀ f ∈ files, 0 < f.length → place cwd x.path ≠ place cwd f.path) : KeepsBytes cwd files d fs (x.writeToFilesystem cwd fs : Res Unit Unit × FS).2 := by
  rcases write_one (cwd := cwd) (fs := fs) x (r := (x.writeToFilesystem cwd fs : Res Unit Unit × FS).1) rfl with h | ⟨-, -, h⟩
  · exact keepsBytes_of_quiet hlen h
  · exact keepsBytes_quiet hlen fun f hf hpos => h _ (ha f hf hpos).symm

/-- A part of the torrent itself is written, or some of it. -/
theorem keepsBytes_own {cwd : Loc} {files : List File} {d : Bytes} {fs : FS} {p : Part} (hlen : total files = d.length) (hA : Agreeing cwd files d)
    (hp : Right files d p) : KeepsBytes cwd files d fs ((toWriter files p).writeToFilesystem cwd fs : Res Unit Unit × FS).2 ∧
    (((toWriter files p).writeToFilesystem cwd fs : Res Unit Unit × FS).1 = .ok () → ∀ g, fileStart files p.file + p.offset ≤ g →
      g < fileStart files p.file + p.offset + p.data.length →
      diskByte ((toWriter files p).writeToFilesystem cwd fs : Res Unit Unit × FS).2 [] (placedFiles cwd files) g = d[g]?) := by
  cases hw : ((toWriter files p).writeToFilesystem cwd fs : Res Unit Unit × FS) with
  | mk r fs' =>
  have hb : r = .ok () → ∀ g, fileStart files p.file + p.offset ≤ g → g < fileStart files p.file + p.offset + p.data.length →
      diskByte fs' [] (placedFiles cwd files) g = d[g]? := by
    intro hr g h1 h2
    subst hr
    obtain ⟨f, hf, hle, -⟩ := id hp
    have := fileStart_total hf
    have hg : g = fileStart files p.file + (g - fileStart files p.file) := by omega
    have := (part_bytes hA hp hw).1 (g - fileStart files p.file) (by omega) (by omega)
    rw [hg]
    exact (hasByte_iff hf (by omega) (by omega)).mp this
  rcases write_one (toWriter files p) hw with h | ⟨rfl, h1, h2⟩
  · exact ⟨keepsBytes_of_quiet hlen h, hb⟩
  · rw [show (toWriter files p).start = p.offset from rfl, show (toWriter files p).piece = p.data from rfl] at h1
    refine ⟨⟨fun g hg hbg => ?_, fun hS f hf hpos => ?_⟩, hb⟩
    · obtain ⟨k, f, hf, ha, hb'⟩ := file_at (by rw [hlen]; exact hg)
      have hx : g = fileStart files k + (g - fileStart files k) := by omega
      rw [hx] at hbg hg ⊢
      exact (hasByte_iff hf (by omega) hg).mp ((part_bytes hA hp hw).2 k _ f hf (by omega) ((hasByte_iff hf (by omega) hg).mpr hbg))
    · obtain ⟨f', hf', hle, -⟩ := hp
      have hpath : (toWriter files p).path = f'.path := by simp [toWriter, hf']
      rw [hpath] at h1 h2
      by_cases he : place cwd f.path = place cwd f'.path
      · rw [restAt, restAt, he]
        have h5 : readFile fs' (place cwd f'.path) = some (pwrite ((readFile fs (place cwd f'.path)).getD []) p.offset p.data) := by rw [readFile, h1]
        rw [h5, Option.getD_some]
        by_cases hd : p.data = []
        · rw [hd, pwrite, if_pos rfl]
        · have : 0 < p.data.length := List.length_pos_iff.mpr hd
          have := hS f hf f' (List.mem_of_getElem? hf') hpos (by omega) he
          exact pwrite_beyond _ _ _ _ (by omega)
      · obtain ⟨a1, a2⟩ := h2 _ he
        show restAt fs' cwd f = restAt fs cwd f
        rw [restAt, restAt, readFile, readFile]
        cases hc : fs (place cwd f.path) with
        | some n => rw [a1 n hc]
        | none =>
          cases hc' : fs' (place cwd f.path) with
          | none => rfl
          | some n =>
            cases n with
            | dir => rfl
            | file c => rw [a2 hc c hc']; simp

/-! ### The invariant -/

/-- A torrent with the metadata `info`: the pieces its writer is done with are on disk, and so are the parts it has written of the piece it is busy with. -/
structure OwnBytes (w : World) (info : Info) (d : Bytes) (fs : FS) (s : Slot) : Prop where
  written : ∀ r ∈ settled s.sys, ∀ g, r.idx * info.pieceLength ≤ g → g < (r.idx + 1) * info.pieceLength → g < d.length →
    diskByte fs [] (placedFiles w.cwd (listedFiles info)) g = d[g]?
  busy : ∀ ws, s.parts = some ws → s.sys.writerUp = true ∧ ∃ r rest pre post, s.sys.ready = r :: rest ∧
    PieceParts Unit w.build (listedFiles info) d info.pieceLength r.idx (pre ++ post) ∧ ws = post.map (toWriter (listedFiles info)) ∧
    ∀ p ∈ pre, ∀ g, fileStart (listedFiles info) p.file + p.offset ≤ g → g < fileStart (listedFiles info) p.file + p.offset + p.data.length →
      diskByte fs [] (placedFiles w.cwd (listedFiles info)) g = d[g]?

/-- A torrent of the process, seen from the torrent with the metadata `info`. -/
def SlotBytes (w : World) (info : Info) (d : Bytes) (fs : FS) (s : Slot) : Prop :=
  (Fresh s.sys ∧ 2 < s.sys.torrent.infoHash.length ∧ s.sys.writerUp = true ∧ s.parts = none) ∨
  ∃ info' n, Known w info' n s.sys ∧ Elsewhere w.cwd info info' ∧
    (∀ ws, s.parts = some ws → ∀ x ∈ ws, ∃ f ∈ listedFiles info', f.path = x.path) ∧ (info' = info → OwnBytes w info d fs s)

theorem right_end {files : List File} {d : Bytes} {p : Part} (hlen : total files = d.length) (hp : Right files d p) :
    fileStart files p.file + p.offset + p.data.length ≤ d.length := by
  obtain ⟨f, hf, hle, -⟩ := hp
  have := fileStart_total hf
  omega

theorem ownBytes_keeps {w : World} {info : Info} {d : Bytes} {fs fs' : FS} {s : Slot} (hlen : total (listedFiles info) = d.length)
    (hk : KeepsBytes w.cwd (listedFiles info) d fs fs') (h : OwnBytes w info d fs s) : OwnBytes w info d fs' s := by
  refine ⟨fun r hr g h1 h2 h3 => hk.bytes g h3 (h.written r hr g h1 h2 h3), fun ws hws => ?_⟩
  obtain ⟨hu, r, rest, pre, post, h1, h3, h4, h5⟩ := h.busy ws hws
  refine ⟨hu, r, rest, pre, post, h1, h3, h4, fun p hp g g1 g2 => hk.bytes g ?_ (h5 p hp g g1 g2)⟩
  have := right_end hlen (h3.right p (List.mem_append_left _ hp))
  omega

theorem slotBytes_keeps {w : World} {info : Info} {d : Bytes} {fs fs' : FS} {s : Slot} (hlen : total (listedFiles info) = d.length)
    (hk : KeepsBytes w.cwd (listedFiles info) d fs fs') (h : SlotBytes w info d fs s) : SlotBytes w info d fs' s := by
  rcases h with h | ⟨info', n, h1, h2, h3, h4⟩
  · exact .inl h
  · exact .inr ⟨info', n, h1, h2, h3, fun e => ownBytes_keeps hlen hk (h4 e)⟩

/-- Steps other than the writer's change the disk only directly in `downloads`. -/
theorem act_bytes {w : World} {info : Info} {d : Bytes} {fs : FS} {s : Slot} {t : Sys} (hlen : total (listedFiles info) = d.length) (hsp : Spared w.cwd info)
    (h : SlotBytes w info d fs s) (hst : Step w { s.sys with fs := fs } t) (hw : t.written = s.sys.written) :
    KeepsBytes w.cwd (listedFiles info) d fs t.fs := by
  cases hst with
  | collect p rest hd hm hi tcp f peerId room collected fs' hnh hc =>
    have hl : 2 < s.sys.torrent.infoHash.length := by
      rcases h with h | ⟨info', n, hk, -⟩
      · exact h.2.1
      · have := hk.hasInfo
        rw [hi] at this
        cases this
    have := (collectInfo_tried (ε := Unit) w.build w.cwd fs (dialOf p.endpoint tcp) f peerId hl room).1
    rw [hc] at this
    refine keepsBytes_quiet hlen fun f hf hpos => ?_
    have hne : place w.cwd f.path ≠ cacheLoc w.cwd s.sys.torrent.infoHash := (hsp f hf hpos).2 _
    by_cases hdl : place w.cwd f.path = w.cwd ++ [b!"downloads"]
    · rw [hdl]
      rcases this.dir with e | ⟨e1, e2⟩
      · exact ⟨fun n hn => e.trans hn, fun hn c hc' => by cases (e.trans hn).symm.trans hc'⟩
      · exact ⟨fun n hn => (by rw [e1] at hn; cases hn), fun _ c hc' => by cases e2.symm.trans hc'⟩
    · have e := this.elsewhere _ hdl hne
      exact ⟨fun n hn => e.trans hn, fun hn c hc' => by cases (e.trans hn).symm.trans hc'⟩
  | write r ready hu hr res fs' hwr =>
    have := congrArg List.length hw
    simp at this
  | announce => exact keepsBytes_refl _ _ _ _
  | take => exact keepsBytes_refl _ _ _ _
  | finishOk => exact keepsBytes_refl _ _ _ _
  | finishErr => exact keepsBytes_refl _ _ _ _
  | finishPanic => exact keepsBytes_refl _ _ _ _
  | success => exact keepsBytes_refl _ _ _ _
  | failed => exact keepsBytes_refl _ _ _ _
  | found => exact keepsBytes_refl _ _ _ _

/-- The log file. -/
theorem keepsBytes_log {cwd : Loc} {info : Info} {d : Bytes} {fs fs' : FS} (hlen : total (listedFiles info) = d.length) (hsp : Spared cwd info)
    (h : ∀ x, x ≠ cwd ++ logPath.comps → fs' x = fs x) : KeepsBytes cwd (listedFiles info) d fs fs' := by
  refine keepsBytes_quiet hlen fun f hf hpos => ?_
  rw [h _ (by rw [logPath_comps]; exact (hsp f hf hpos).1)]
  exact ⟨fun _ h => h, fun h c hc => by rw [h] at hc; cases hc⟩

/-- The writer takes a piece: a collision, or the published piece and its parts. -/
theorem own_begin_any {w : World} {info : Info} {n : Nat} {d : Bytes} {s : Sys} (h : Known w info n s) (hd : Describes w.sha info d)
    (h64 : d.length < 2 ^ 64) {r : Ready} {rest : List Ready} (hr : s.ready = r :: rest) :
    (r.idx < pieceCount d.length info.pieceLength ∧ Collision w.sha r.piece (piece d info.pieceLength r.idx)) ∨
    ∃ ps, PieceParts Unit w.build (listedFiles info) d info.pieceLength r.idx ps ∧
      (getFileWriters w.build r.files r.piece r.idx r.pieceLength : Res Unit (List FileWriter)) = .ok (ps.map (toWriter (listedFiles info))) := by
  have hmem : r ∈ s.written ++ s.ready := by rw [hr]; simp
  have hlt : r.idx < pieceCount d.length info.pieceLength := by
    rw [← known_count h hd h64]; exact idx_lt h hmem
  obtain ⟨⟨-, hsha⟩, hfiles, hpl⟩ := h.ready r hmem
  have hfiles' := listedFiles_spec hfiles
  by_cases hp : r.piece = piece d info.pieceLength r.idx
  · right
    obtain ⟨ps, hps⟩ := pieceParts (ε := Unit) (m := w.build) hd.total h64 hd.pieceLength hlt
    exact ⟨ps, hps, by rw [hp, hfiles', hpl]; exact hps.writers⟩
  · exact .inl ⟨hlt, hp, by rw [hsha, ← hd.hashes _ hlt, Nat.mul_comm]⟩

/-- What comes of a part of a torrent's piece that its writer writes, or is stopped in. -/
theorem slot_part_bytes {w : World} {info : Info} {d : Bytes} {fs : FS} {s : Slot} (hlen : total (listedFiles info) = d.length)
    (hA : Agreeing w.cwd (listedFiles info) d) (h : SlotBytes w info d fs s) {x : FileWriter} {xs : List FileWriter} (hp : s.parts = some (x :: xs)) :
    KeepsBytes w.cwd (listedFiles info) d fs (x.writeToFilesystem w.cwd fs : Res Unit Unit × FS).2 ∧
    ∀ fs', TornPart w.cwd fs x fs' → KeepsBytes w.cwd (listedFiles info) d fs fs' := by
  have torn : ∀ P : FS → Prop, (∀ n, P (FileWriter.writeToFilesystem (ε := Unit) w.cwd fs { x with piece := x.piece.take n }).2) → (∀ fs', Quiet fs fs' → P fs') →
      ∀ fs', TornPart w.cwd fs x fs' → P fs' := by
    intro P h1 h2 fs' ht
    cases ht with
    | dirs k hk => exact h2 _ (quiet_dirs _ _ _)
    | data n => exact h1 n
  rcases h with ⟨-, -, -, e⟩ | ⟨info', n, hk, hb, hpaths, hown⟩
  · rw [hp] at e; cases e
  · rcases hb with e | hb
    · obtain ⟨-, r, rest, pre, post, h1, h3, h4, h5⟩ := (hown e).busy _ hp
      cases post with
      | nil => cases h4
      | cons q post =>
        simp only [List.map_cons, List.cons.injEq] at h4
        have hq : Right (listedFiles info) d q := h3.right q (by simp)
        refine ⟨by rw [h4.1]; exact (keepsBytes_own hlen hA hq).1, torn _ (fun n => ?_) (fun fs' hq => keepsBytes_of_quiet hlen hq)⟩
        rw [h4.1]
        exact (keepsBytes_own hlen hA (right_upTo hq n)).1
    · obtain ⟨f, hf, e⟩ := hpaths _ hp x (by simp)
      have ha : ∀ g ∈ listedFiles info, 0 < g.length → place w.cwd x.path ≠ place w.cwd g.path := fun g hg hpos => by rw [← e]; exact hb g hg hpos f hf
      exact ⟨keepsBytes_other hlen ha, torn _ (fun n => keepsBytes_other (x := { x with piece := x.piece.take n }) hlen ha) (fun fs' hq => keepsBytes_of_quiet hlen hq)⟩

theorem torn_bytes {w : World} {info : Info} {d : Bytes} {slots : List Slot} {fs fs' : FS} (hlen : total (listedFiles info) = d.length)
    (hA : Agreeing w.cwd (listedFiles info) d) (ht : TornAll w.cwd fs slots fs') :
    (∀ s ∈ slots, SlotBytes w info d fs s) → KeepsBytes w.cwd (listedFiles info) d fs fs' := by
  induction ht with
  | nil => exact fun _ => keepsBytes_refl _ _ _ _
  | skip h ih => exact fun hi => ih fun s hs => hi s (List.mem_cons_of_mem _ hs)
  | part hx h1 h ih =>
    intro hi
    have k1 := (slot_part_bytes hlen hA (hi _ (List.mem_cons_self ..)) hx).2 _ h1
    exact keepsBytes_trans k1 (ih fun s hs => slotBytes_keeps hlen k1 (hi s (List.mem_cons_of_mem _ hs)))

/-- One torrent changes, and the disk, harmlessly. -/
theorem bytes_set {w : World} {info : Info} {d : Bytes} {slots : List Slot} {fs fs' : FS} {k : Nat} {s' : Slot} (hlen : total (listedFiles info) = d.length)
    (h : ∀ s ∈ slots, SlotBytes w info d fs s) (hk : KeepsBytes w.cwd (listedFiles info) d fs fs') (hs : SlotBytes w info d fs' s') :
    ∀ s ∈ slots.set k s', SlotBytes w info d fs' s := by
  intro s hmem
  rcases List.mem_or_eq_of_mem_set hmem with hm | rfl
  · exact slotBytes_keeps hlen hk (h s hm)
  · exact hs

theorem settled_false {s : Slot} {r : Ready} {ready : List Ready} (hu : s.sys.writerUp = true) : settled (s.done r ready false).sys = settled s.sys := by
  simp [settled, Slot.done, hu]

theorem bytes_step {w : World} {info : Info} {d : Bytes} {P P' : Proc} (hd : Describes w.sha info d) (h64 : d.length < 2 ^ 64)
    (hA : Agreeing w.cwd (listedFiles info) d) (hsp : Spared w.cwd info) (h : ∀ s ∈ P.slots, SlotBytes w info d P.fs s) (hst : PStep w P P')
    (hq : ∀ s ∈ P'.slots, ∀ i, s.sys.torrent.info = some i → Elsewhere w.cwd info i) :
    ForgedP w info d P' ∨ ((∀ s ∈ P'.slots, SlotBytes w info d P'.fs s) ∧ KeepsBytes w.cwd (listedFiles info) d P.fs P'.fs) := by
  have hlen := hd.total
  cases hst with
  | start hl fs he =>
    have hkeep := keepsBytes_log (d := d) hlen hsp (createLog_only he)
    exact .inr ⟨fun s hs => slotBytes_keeps hlen hkeep (h s hs), hkeep⟩
  | log n hl line =>
    have hkeep := keepsBytes_log (d := d) (fs := P.fs) (fs' := P.fs.writeAt (w.cwd ++ logPath.comps) n line) hlen hsp (fun x hx => writeAt_other _ _ _ hx)
    exact .inr ⟨fun s hs => slotBytes_keeps hlen hkeep (h s hs), hkeep⟩
  | add hl body infoHash ha =>
    refine .inr ⟨?_, keepsBytes_refl _ _ _ _⟩
    intro s hs
    rcases List.mem_append.mp hs with hs | hs
    · exact h s hs
    · rw [List.mem_singleton.mp hs]
      refine .inl ⟨fresh_init _ _, ?_, rfl, rfl⟩
      have := addMagnet_length ha
      show 2 < infoHash.length
      omega
  | act k s t hk hst hw =>
    have hmem := List.mem_of_getElem? hk
    have hs := h s hmem
    have hkeep := act_bytes hlen hsp hs hst hw
    obtain ⟨a1, a2, more, a3⟩ := act_writer hst hw
    have hlt : k < P.slots.length := (List.getElem?_eq_some_iff.mp hk).1
    have hmem' : (⟨t, s.parts⟩ : Slot) ∈ P.slots.set k ⟨t, s.parts⟩ := List.mem_set hlt _
    refine .inr ⟨bytes_set hlen h hkeep ?_, hkeep⟩
    rcases hs with ⟨h1, h2, h3, h4⟩ | ⟨info', n, h1, h2, h3, h4⟩
    · rcases fresh_step (fresh_fs h1 P.fs) hst with hf | ⟨info', n, hk'⟩
      · refine .inl ⟨hf, ?_, ?_, h4⟩
        · rw [a2]; exact h2
        · rw [a1]; exact h3
      · refine .inr ⟨info', n, hk', hq _ hmem' _ hk'.hasInfo, ?_, fun e => ⟨?_, ?_⟩⟩
        · intro ws hws
          simp only [h4] at hws
          cases hws
        · intro r hr
          simp only [settled, hw, h1.written, List.dropLast_nil, ite_self, List.not_mem_nil] at hr
        · intro ws hws
          simp only [h4] at hws
          cases hws
    · refine .inr ⟨info', n, known_step (known_fs h1 P.fs) hst, h2, h3, fun e => ?_⟩
      have ho := ownBytes_keeps hlen hkeep (h4 e)
      refine ⟨?_, ?_⟩
      · intro r hr
        have e1 : settled t = settled s.sys := by
          unfold settled
          rw [a1, hw]
        exact ho.written r (by rw [← e1]; exact hr)
      · intro ws hws
        obtain ⟨b0, r, rest, pre, post, b1, b3, b4, b5⟩ := ho.busy ws hws
        refine ⟨a1.trans b0, r, rest ++ more, pre, post, ?_, b3, b4, b5⟩
        show t.ready = _
        rw [a3, show ({ s.sys with fs := P.fs } : Sys).ready = s.sys.ready from rfl, b1]
        rfl
  | begin k s r ready info' ws hk hp hu hr hi hws =>
    rcases h s (List.mem_of_getElem? hk) with ⟨h1, -⟩ | ⟨info'', n, h1, h2, h3, h4⟩
    · rw [h1.info] at hi; cases hi
    · have e : info'' = info' := by have := h1.hasInfo; rw [hi] at this; cases this; rfl
      subst e
      by_cases e : info'' = info
      · subst e
        rcases own_begin_any h1 hd h64 hr with ⟨c1, c2⟩ | ⟨ps, c2, c3⟩
        · exact .inl ⟨r, List.mem_append_right _ (List.mem_singleton.mpr rfl), c1, c2⟩
        · refine .inr ⟨bytes_set hlen h (keepsBytes_refl _ _ _ _) (.inr ⟨info'', n, h1, h2, ?_, fun e => ?_⟩), keepsBytes_refl _ _ _ _⟩
          · intro ws' hws'
            cases hws'
            exact paths_listed h1 hr hws
          · refine ⟨(h4 rfl).written, ?_⟩
            intro ws' hws'
            cases hws'
            rw [hws] at c3
            cases c3
            exact ⟨hu, r, ready, [], ps, hr, c2, rfl, by simp⟩
      · refine .inr ⟨bytes_set hlen h (keepsBytes_refl _ _ _ _) (.inr ⟨info'', n, h1, h2, ?_, fun e' => absurd e' e⟩), keepsBytes_refl _ _ _ _⟩
        intro ws' hws'
        cases hws'
        exact paths_listed h1 hr hws
  | beginCrash k s r ready info' hk hp hu hr hi hws =>
    rcases h s (List.mem_of_getElem? hk) with ⟨h1, -⟩ | ⟨info'', n, h1, h2, h3, h4⟩
    · rw [h1.info] at hi; cases hi
    · have hk' : Known w info'' n (s.done r ready false).sys := known_write h1 hr s.sys.fs false
      refine .inr ⟨bytes_set hlen h (keepsBytes_refl _ _ _ _) (.inr ⟨info'', n, hk', h2, ?_, fun e' => ⟨?_, ?_⟩⟩), keepsBytes_refl _ _ _ _⟩
      · intro ws' hws'
        cases hws'
      · rw [settled_false hu]
        exact (h4 e').written
      · intro ws' hws'
        cases hws'
  | part k s x xs fs hk hp hwr =>
    have hmem := List.mem_of_getElem? hk
    have hkeep := (slot_part_bytes hlen hA (h s hmem) hp).1
    rw [hwr] at hkeep
    refine .inr ⟨bytes_set hlen h hkeep ?_, hkeep⟩
    rcases h s hmem with ⟨-, -, -, e⟩ | ⟨info', n, h1, h2, h3, h4⟩
    · rw [hp] at e; cases e
    · refine .inr ⟨info', n, h1, h2, ?_, fun e => ?_⟩
      · intro ws hws y hy
        cases hws
        exact h3 _ hp y (List.mem_cons_of_mem _ hy)
      · have ho := ownBytes_keeps hlen hkeep (h4 e)
        refine ⟨ho.written, ?_⟩
        intro ws hws
        cases hws
        obtain ⟨b0, r, rest, pre, post, b1, b3, b4, b5⟩ := ho.busy _ hp
        cases post with
        | nil => cases b4
        | cons q post =>
          simp only [List.map_cons, List.cons.injEq] at b4
          refine ⟨b0, r, rest, pre ++ [q], post, b1, by rw [List.append_assoc]; exact b3, b4.2, ?_⟩
          intro p hp'
          rcases List.mem_append.mp hp' with hp' | hp'
          · exact b5 p hp'
          · rw [List.mem_singleton.mp hp']
            have := (keepsBytes_own (fs := P.fs) hlen hA (b3.right q (by simp))).2
            rw [← b4.1, hwr] at this
            exact this rfl
  | partCrash k s x xs fs r ready hk hp hr hwr =>
    have hmem := List.mem_of_getElem? hk
    have hkeep := (slot_part_bytes hlen hA (h s hmem) hp).1
    rw [hwr] at hkeep
    refine .inr ⟨bytes_set hlen h hkeep ?_, hkeep⟩
    rcases h s hmem with ⟨-, -, -, e⟩ | ⟨info', n, h1, h2, h3, h4⟩
    · rw [hp] at e; cases e
    · refine .inr ⟨info', n, known_write h1 hr s.sys.fs false, h2, ?_, fun e => ?_⟩
      · intro ws hws
        cases hws
      · have ho := ownBytes_keeps hlen hkeep (h4 e)
        refine ⟨?_, fun ws hws => by cases hws⟩
        rw [settled_false (ho.busy _ hp).1]
        exact ho.written
  | «end» k s r ready hk hp hr =>
    have hmem := List.mem_of_getElem? hk
    refine .inr ⟨bytes_set hlen h (keepsBytes_refl _ _ _ _) ?_, keepsBytes_refl _ _ _ _⟩
    rcases h s hmem with ⟨-, -, -, e⟩ | ⟨info', n, h1, h2, h3, h4⟩
    · rw [hp] at e; cases e
    · refine .inr ⟨info', n, known_write h1 hr s.sys.fs true, h2, ?_, fun e => ?_⟩
      · intro ws hws
        cases hws
      · obtain ⟨b0, r', rest, pre, post, b1, b3, b4, b5⟩ := (h4 e).busy _ hp
        cases post with
        | cons q post => cases b4
        | nil =>
          rw [List.append_nil] at b3
          rw [hr] at b1
          cases b1
          refine ⟨?_, fun ws hws => by cases hws⟩
          intro r' hr' g g1 g2 g3
          have : settled (s.done r ready true).sys = settled s.sys ++ [r] := by simp [settled, Slot.done, b0]
          rw [this] at hr'
          rcases List.mem_append.mp hr' with hr' | hr'
          · exact (h4 e).written r' hr' g g1 g2 g3
          · rw [List.mem_singleton.mp hr'] at g1 g2
            obtain ⟨p, hpm, c1, c2⟩ := b3.covers g g1 g2 g3
            exact b5 p hpm g c1 c2
  | stop order ho fs ht =>
    have hkeep := torn_bytes (info := info) (d := d) hlen hA ht fun s hs => h s (ho.mem_iff.mp hs)
    exact .inr ⟨fun s hs => (by cases hs), hkeep⟩

theorem bytes_steps {w : World} {info : Info} {d : Bytes} {P P' : Proc} (hd : Describes w.sha info d) (h64 : d.length < 2 ^ 64)
    (hA : Agreeing w.cwd (listedFiles info) d) (hsp : Spared w.cwd info) (h : ∀ s ∈ P.slots, SlotBytes w info d P.fs s)
    (hst : PSteps w (Elsewhere w.cwd info) P P') :
    ForgedP w info d P' ∨ ((∀ s ∈ P'.slots, SlotBytes w info d P'.fs s) ∧ KeepsBytes w.cwd (listedFiles info) d P.fs P'.fs) := by
  induction hst with
  | refl => exact .inr ⟨h, keepsBytes_refl _ _ _ _⟩
  | tail hs hst hq ih =>
    rcases ih with ih | ⟨i1, i2⟩
    · exact .inl (forgedP_step ih hst)
    · rcases bytes_step hd h64 hA hsp i1 hst hq with j | ⟨j1, j2⟩
      · exact .inl j
      · exact .inr ⟨j1, keepsBytes_trans i2 j2⟩

/-! ### C69, C75 -/

theorem forgedP_steps {w : World} {info : Info} {d : Bytes} {Q : Info → Prop} {P P' : Proc} (h : ForgedP w info d P) (hst : PSteps w Q P P') : ForgedP w info d P' := by
  induction hst with
  | refl => exact h
  | tail _ hst _ ih => exact forgedP_step ih hst

/-- C75, whatever the paths are: what is right on the disk when the program starts stays right, at every moment, whatever peers, crashes and torrents elsewhere do; or a collision is
at hand. Missing: files in one place that do not agree, and files in the places of the log or of metadata. -/
theorem C75_anywhere_partial {w : World} {info : Info} {d : Bytes} {fs : FS} {P : Proc} (hd : Describes w.sha info d) (h64 : d.length < 2 ^ 64)
    (hA : Agreeing w.cwd (listedFiles info) d) (hsp : Spared w.cwd info) (h : PSteps w (Elsewhere w.cwd info) (Proc.init fs) P) :
    (∃ r, (info, r) ∈ P.taken ∧ Collision w.sha r.piece (piece d info.pieceLength r.idx)) ∨
    ∀ g, g < d.length → diskByte fs [] (placedFiles w.cwd (listedFiles info)) g = d[g]? → diskByte P.fs [] (placedFiles w.cwd (listedFiles info)) g = d[g]? := by
  rcases bytes_steps hd h64 hA hsp (fun s hs => by cases hs) h with ⟨r, hr, -, hc⟩ | ⟨-, hk⟩
  · exact .inl ⟨r, hr, hc⟩
  · exact .inr hk.bytes

theorem ownBytes_of {w : World} {info : Info} {d : Bytes} {P : Proc} {s : Slot} (h : ∀ s ∈ P.slots, SlotBytes w info d P.fs s) (hs : s ∈ P.slots)
    (hi : s.sys.torrent.info = some info) : OwnBytes w info d P.fs s := by
  rcases h s hs with ⟨h1, -⟩ | ⟨info', n, h1, -, -, h4⟩
  · rw [h1.info] at hi; cases hi
  · exact h4 (by rw [h1.hasInfo] at hi; exact Option.some.inj hi)

/-- C69 for pieces, whatever the paths are: a piece that a writer is done with is on disk as published from then on, however often the process is stopped and started again, and whatever
torrents elsewhere do; or a collision has been exhibited. Missing: as for `C75_anywhere_partial`. -/
theorem C69_anywhere_partial {w : World} {info : Info} {d : Bytes} {fs : FS} {P P' : Proc} {s : Slot} (hd : Describes w.sha info d) (h64 : d.length < 2 ^ 64)
    (hA : Agreeing w.cwd (listedFiles info) d) (hsp : Spared w.cwd info)
    (h1 : PSteps w (Elsewhere w.cwd info) (Proc.init fs) P) (hs : s ∈ P.slots) (hi : s.sys.torrent.info = some info) (h2 : PSteps w (Elsewhere w.cwd info) P P') :
    (∃ r, (info, r) ∈ P'.taken ∧ Collision w.sha r.piece (piece d info.pieceLength r.idx)) ∨
    ∀ r ∈ settled s.sys, ∀ g, r.idx * info.pieceLength ≤ g → g < (r.idx + 1) * info.pieceLength → g < d.length →
      diskByte P'.fs [] (placedFiles w.cwd (listedFiles info)) g = d[g]? := by
  rcases bytes_steps hd h64 hA hsp (fun s hs => by cases hs) h1 with hf | ⟨j1, -⟩
  · obtain ⟨r, hr, -, hc⟩ := forgedP_steps hf h2
    exact .inl ⟨r, hr, hc⟩
  · rcases bytes_steps hd h64 hA hsp j1 h2 with ⟨r, hr, -, hc⟩ | ⟨-, hk⟩
    · exact .inl ⟨r, hr, hc⟩
    · exact .inr fun r hr g g1 g2 g3 => hk.bytes g g3 ((ownBytes_of j1 hs hi).written r hr g g1 g2 g3)

/-- Files that are all right agree. -/
theorem right_agreeing {cwd : Loc} {fs : FS} {files : List File} {d : Bytes} (hlen : total files = d.length) (h : FilesRight fs [] (placedFiles cwd files) d) :
    Agreeing cwd files d ∧ SameLength cwd files ∧ ∀ f ∈ files, 0 < f.length → restAt fs cwd f = [] := by
  have content : ∀ k f, files[k]? = some f → (fileContent files d k f).length = f.length ∧ ∀ x, x < f.length → (fileContent files d k f)[x]? = d[fileStart files k + x]? := by
    intro k f hk
    have := fileStart_total hk
    refine ⟨by simp [fileContent]; omega, fun x hx => ?_⟩
    rw [fileContent, List.getElem?_take, if_pos hx, List.getElem?_drop]
  have right : ∀ k f, files[k]? = some f → 0 < f.length → readFile fs (place cwd f.path) = some (fileContent files d k f) := by
    intro k f hk hpos
    have := h k _ (placed_get hk) hpos
    rw [List.nil_append, fileContent, placed_start] at this
    exact this
  have eq : ∀ i j f g, files[i]? = some f → files[j]? = some g → 0 < f.length → 0 < g.length → place cwd f.path = place cwd g.path →
      fileContent files d i f = fileContent files d j g := by
    intro i j f g hi hj h1 h2 he
    have a := right i f hi h1
    rw [he, right j g hj h2] at a
    exact (Option.some.inj a).symm
  refine ⟨fun i j f g hi hj he x hx hy => ?_, fun f hf g hg h1 h2 he => ?_, fun f hf hpos => ?_⟩
  · rw [← (content i f hi).2 x hx, ← (content j g hj).2 x hy, eq i j f g hi hj (by omega) (by omega) he]
  · obtain ⟨i, hi⟩ := List.getElem?_of_mem hf
    obtain ⟨j, hj⟩ := List.getElem?_of_mem hg
    rw [← (content i f hi).1, ← (content j g hj).1, eq i j f g hi hj h1 h2 he]
  · obtain ⟨k, hk⟩ := List.getElem?_of_mem hf
    rw [restAt, right k f hk hpos, Option.getD_some]
    exact List.drop_of_length_le (Nat.le_of_eq (content k f hk).1)

/-- Nothing is beyond the listed lengths exactly if no file is longer. -/
theorem noneLonger_rest {cwd : Loc} {fs : FS} {files : List File} : NoneLonger fs [] (placedFiles cwd files) ↔ ∀ f ∈ files, 0 < f.length → restAt fs cwd f = [] := by
  constructor
  · intro h f hf hpos
    rw [restAt]
    cases hc : readFile fs (place cwd f.path) with
    | none => simp
    | some c =>
      obtain ⟨k, hk⟩ := List.getElem?_of_mem hf
      exact List.drop_of_length_le (h _ (List.mem_of_getElem? (placed_get hk)) hpos c hc)
  · intro h g hg hpos c hc
    obtain ⟨k, hk⟩ := List.getElem?_of_mem hg
    obtain ⟨f, hf, rfl⟩ := placed_get' hk
    have := h f (List.mem_of_getElem? hf) hpos
    rw [restAt, show readFile fs (place cwd f.path) = some c from hc, Option.getD_some, List.drop_eq_nil_iff] at this
    exact this

/-- Files are right if their bytes are and nothing is beyond. -/
theorem right_of_bytes {cwd : Loc} {fs : FS} {files : List File} {d : Bytes} (hlen : total files = d.length)
    (hb : ∀ g, g < d.length → diskByte fs [] (placedFiles cwd files) g = d[g]?) (hr : ∀ f ∈ files, 0 < f.length → restAt fs cwd f = []) :
    FilesRight fs [] (placedFiles cwd files) d := by
  intro k g hg hpos
  obtain ⟨f, hf, rfl⟩ := placed_get' hg
  have ht := fileStart_total hf
  rw [List.nil_append, fileContent, placed_start]
  show readFile fs (place cwd f.path) = some ((d.drop (fileStart files k)).take f.length)
  have byte : ∀ x, x < f.length → HasByte fs cwd files d k x := fun x hx => (hasByte_iff hf hx (by omega)).mpr (hb _ (by omega))
  obtain ⟨f', c, hf', hc, -⟩ := byte 0 hpos
  rw [hf] at hf'
  cases hf'
  have hrc : readFile fs (place cwd f.path) = some c := by rw [readFile, hc]
  have hrest := hr f (List.mem_of_getElem? hf) hpos
  rw [restAt, hrc, Option.getD_some, List.drop_eq_nil_iff] at hrest
  rw [hrc, Option.some.injEq]
  apply List.ext_getElem?
  intro x
  by_cases hx : x < f.length
  · obtain ⟨f', c', hf', hc', -, e⟩ := byte x hx
    rw [hf] at hf'
    cases hf'
    rw [hc] at hc'
    cases hc'
    rw [List.getElem?_take, if_pos hx, List.getElem?_drop, e]
  · rw [List.getElem?_eq_none (by omega), List.getElem?_eq_none (by rw [List.length_take]; omega)]

/-- C69 for files, exactly, whatever the paths are: once the writer is done with all pieces of a torrent its files are right from then on, or they never are; they are just if files in one
place are the same and no longer file was in the place of one before the process was started first. It does not matter how often the process is stopped and started again, or what torrents
elsewhere do; or a collision has been exhibited. Missing: files in the places of the log or of metadata. -/
theorem C69_anywhere_exactly_partial {w : World} {info : Info} {d : Bytes} {fs : FS} {P P' : Proc} {s : Slot} (hd : Describes w.sha info d) (h64 : d.length < 2 ^ 64)
    (hsp : Spared w.cwd info) (h1 : PSteps w (Elsewhere w.cwd info) (Proc.init fs) P) (hs : s ∈ P.slots) (hi : s.sys.torrent.info = some info)
    (hall : ∀ i, i < pieceCount d.length info.pieceLength → i ∈ (settled s.sys).map Ready.idx) (h2 : PSteps w (Elsewhere w.cwd info) P P') :
    (∃ r, (info, r) ∈ P'.taken ∧ Collision w.sha r.piece (piece d info.pieceLength r.idx)) ∨
    (FilesRight P'.fs [] (placedFiles w.cwd (listedFiles info)) d ↔ Agreeing w.cwd (listedFiles info) d ∧ SameLength w.cwd (listedFiles info) ∧
      NoneLonger fs [] (placedFiles w.cwd (listedFiles info))) := by
  by_cases hA : Agreeing w.cwd (listedFiles info) d
  · rcases bytes_steps hd h64 hA hsp (fun s hs => by cases hs) (h1.trans h2) with ⟨r, hr, -, hc⟩ | ⟨-, hk⟩
    · exact .inl ⟨r, hr, hc⟩
    rcases C69_anywhere_partial hd h64 hA hsp h1 hs hi h2 with hc | hb
    · exact .inl hc
    refine .inr ⟨fun h => ?_, fun ⟨_, hS, hN⟩ => ?_⟩
    · obtain ⟨_, hS, hr⟩ := right_agreeing hd.total h
      exact ⟨hA, hS, noneLonger_rest.mpr fun f hf hpos => (hk.rest hS f hf hpos).symm.trans (hr f hf hpos)⟩
    · refine right_of_bytes hd.total (fun g hg => ?_) fun f hf hpos => (hk.rest hS f hf hpos).trans (noneLonger_rest.mp hN f hf hpos)
      obtain ⟨r, hr, e⟩ := List.mem_map.mp (hall _ (lt_count hd.pieceLength hg))
      have hpl := hd.pieceLength
      refine hb r hr g ?_ ?_ hg
      · rw [e]; exact Nat.div_mul_le_self _ _
      · rw [e, Nat.succ_mul, Nat.mul_comm]; exact Nat.lt_mul_div_succ g hpl
  · exact .inr ⟨fun h => absurd (right_agreeing hd.total h).1 hA, fun h => absurd h.1 hA⟩

/-! ### C81, C84 -/

/-- C81 for files, exactly, whatever the paths are: as `C69_anywhere_exactly_partial`, in the whole program. -/
theorem C81_anywhere_exactly_partial {w : World} {info : Info} {d : Bytes} {fs : FS} {n : Nat} {A A' : App} {s : Slot} (hd : Describes w.sha info d) (h64 : d.length < 2 ^ 64)
    (hsp : Spared w.cwd info) (h1 : ASteps w (Elsewhere w.cwd info) (App.init fs n) A) (hs : s ∈ A.proc.slots) (hi : s.sys.torrent.info = some info)
    (hall : ∀ i, i < pieceCount d.length info.pieceLength → i ∈ (settled s.sys).map Ready.idx) (h2 : ASteps w (Elsewhere w.cwd info) A A') :
    (∃ r, (info, r) ∈ A'.proc.taken ∧ Collision w.sha r.piece (piece d info.pieceLength r.idx)) ∨
    (FilesRight A'.proc.fs [] (placedFiles w.cwd (listedFiles info)) d ↔ Agreeing w.cwd (listedFiles info) d ∧ SameLength w.cwd (listedFiles info) ∧
      NoneLonger fs [] (placedFiles w.cwd (listedFiles info))) :=
  C69_anywhere_exactly_partial hd h64 hsp (proc_steps (ainv_init fs n) h1) hs hi hall (proc_steps (ainv_steps h1 (ainv_init fs n)) h2)

/-- C81, whatever the paths are: what is right on the disk when the program starts stays right. Missing: as for `C75_anywhere_partial`. -/
theorem C81_anywhere_kept_partial {w : World} {info : Info} {d : Bytes} {fs : FS} {n : Nat} {A : App} (hd : Describes w.sha info d) (h64 : d.length < 2 ^ 64)
    (hA : Agreeing w.cwd (listedFiles info) d) (hsp : Spared w.cwd info) (h : ASteps w (Elsewhere w.cwd info) (App.init fs n) A) :
    (∃ r, (info, r) ∈ A.proc.taken ∧ Collision w.sha r.piece (piece d info.pieceLength r.idx)) ∨
    ∀ g, g < d.length → diskByte fs [] (placedFiles w.cwd (listedFiles info)) g = d[g]? → diskByte A.proc.fs [] (placedFiles w.cwd (listedFiles info)) g = d[g]? :=
  C75_anywhere_partial hd h64 hA hsp (proc_steps (ainv_init fs n) h)

/-- C84, whatever the paths are: when a torrent of the program has started, has nothing more to do and lost nothing, and its writer has not died, its files are right just if files in one
place are the same and no longer file was in the way, whatever else the program does. Missing: as in `C69_anywhere_exactly_partial`. -/
theorem C84_anywhere_partial {w : World} {info : Info} {d : Bytes} {fs : FS} {n : Nat} {A : App} {s : Slot} (hd : Describes w.sha info d) (h64 : d.length < 2 ^ 64)
    (hsp : Spared w.cwd info) (h : ASteps w (Elsewhere w.cwd info) (App.init fs n) A) (hs : s ∈ A.proc.slots) (hi : s.sys.torrent.info = some info)
    (hini : s.sys.torrent.initiated = true) (hf : flight s.sys = []) (hr : s.sys.ready = []) (hl : s.sys.lost = []) (hu : s.sys.writerUp = true) :
    (∃ r, (info, r) ∈ A.proc.taken ∧ Collision w.sha r.piece (piece d info.pieceLength r.idx)) ∨
    (FilesRight A.proc.fs [] (placedFiles w.cwd (listedFiles info)) d ↔ Agreeing w.cwd (listedFiles info) d ∧ SameLength w.cwd (listedFiles info) ∧
      NoneLonger fs [] (placedFiles w.cwd (listedFiles info))) := by
  have hc : contentLength info = d.length := by rw [contentLength_listed, hd.total]
  have hp := C43_all_handed_partial (C84_among h hs) hi (.inr (by rw [hc]; exact h64)) hini hl hf
  refine C81_anywhere_exactly_partial hd h64 hsp h hs hi (fun i hi' => ?_) (.refl _)
  have hm : i ∈ handed s.sys := hp.mem_iff.mpr (List.mem_range.mpr (by rw [count, hc]; exact hi'))
  rw [handed, hr] at hm
  rw [settled, if_pos hu]
  simpa using hm

/-- Non-vacuity: in every world (with 20-byte hashes) whose working directory is not the root, from an empty disk, the torrent of the file `/a`, which none of the earlier theorems
are about, gets there, and its file is right. -/
example (w : World) (hsha : ∀ b, (w.sha b).length = 20) (hcwd : w.cwd ≠ []) : ∃ info d A s, Describes w.sha info d ∧ d.length < 2 ^ 64 ∧ Spared w.cwd info ∧
    Agreeing w.cwd (listedFiles info) d ∧ SameLength w.cwd (listedFiles info) ∧ NoneLonger (fun _ => none) [] (placedFiles w.cwd (listedFiles info)) ∧
    ASteps w (Elsewhere w.cwd info) (App.init (fun _ => none) 1) A ∧ s ∈ A.proc.slots ∧ s.sys.torrent.info = some info ∧
    (∀ i, i < pieceCount d.length info.pieceLength → i ∈ (settled s.sys).map Ready.idx) ∧ readFile A.proc.fs [b!"a"] = some d := by
  have hpos := List.length_pos_iff.mpr hcwd
  obtain ⟨fs', h1, h2, h3⟩ := started w (Elsewhere w.cwd (oneFile w.sha (absText [b!"a"]) [1, 2, 3])) (fs := fun _ => none) 1 (by simp)
  have ne : ∀ (x y : Loc), x.length ≤ 1 → y ≠ [] → x ≠ w.cwd ++ y := by
    rintro x y hx hy rfl
    have := List.length_pos_iff.mpr hy
    rw [List.length_append] at hx
    omega
  have hpl : Plain [b!"a"] := ⟨by simp, by decide⟩
  have hall : ∀ f ∈ listedFiles (oneFile w.sha (absText [b!"a"]) [1, 2, 3]), place w.cwd f.path = [b!"a"] := by
    intro f hf
    rw [List.mem_singleton.mp hf]
    exact place_abs hpl
  have hone : ∀ (i : Nat) (f : File), (listedFiles (oneFile w.sha (absText [b!"a"]) [1, 2, 3]))[i]? = some f → i = 0 := by
    intro i f h
    have := (List.getElem?_eq_some_iff.mp h).1
    simp only [listedFiles, oneFile, List.length_singleton] at this
    omega
  have ha : fs' [b!"a"] = none := h3 _ (ne _ _ (by simp) (by simp))
  obtain ⟨A', s, g1, g2, -, g4, g5, g6, g7⟩ := oneFile_finished (thread := 0) h1 hsha (by simp) init_up (by show 0 < 1; decide) (by simp) (add1 w.build) (by decide)
    ⟨.inr (h3 _ (other_name (by decide) [])), h3 _ (other_name (by decide) _)⟩ [b!"a"] hpl (by decide +kernel) (by decide) (by
      rintro ⟨t, ht⟩
      rw [List.append_assoc] at ht
      exact ne [b!"a"] _ (by simp) (by simp) ht.symm) [1, 2, 3] (by simp) (by decide) (.inl rfl)
    (by
      intro q hq hne c
      have hl : q.length ≤ 1 := hq.length_le
      rw [show (App.proc _).fs q = fs' q from rfl, h3 q (ne q _ hl (by simp))]
      simp)
    (by rw [show (App.proc _).fs [b!"a"] = fs' [b!"a"] from rfl, ha]; simp)
    (by
      intro c hc
      have : readFile fs' [b!"a"] = some c := hc
      rw [readFile, ha] at this
      cases this)
  refine ⟨_, [1, 2, 3], A', s, oneFile_describes hsha _ (by simp), by decide, fun f hf _ => ?_, fun i j f g hi hj _ x _ _ => ?_, fun f hf g hg _ _ _ => ?_, fun _ _ _ c hc => (by cases hc),
    h1.trans g1.steps, List.mem_of_getElem? g2, g4, fun i hi => ?_, g7⟩
  · rw [hall f hf]
    exact ⟨ne _ _ (by simp) (by simp), fun name => ne _ _ (by simp) (by simp)⟩
  · rw [hone i f hi, hone j g hj]
  · rw [List.mem_singleton.mp hf, List.mem_singleton.mp hg]
  · have : i < pieceCount 3 3 := hi
    have : i = 0 := by
      have : pieceCount 3 3 = 1 := by decide
      omega
    rw [this, settled, if_pos g5]
    exact g6

end RustBit
