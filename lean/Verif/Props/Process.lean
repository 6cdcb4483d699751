/-
C69, C70: many torrents in one process that is stopped and started again at any moment. C71: requests.
-/
import Verif.Proofs.Process
import Verif.Props.Finish

namespace RustBit
open Spec

/-! ### C69 -/

theorem inv_init {w : World} {info : Info} {d : Bytes} {fs : FS} (h : Placeable w.cwd fs (listedFiles info) d info.pieceLength) :
    Inv w info d (Proc.init fs) := ⟨h, fun s hs => by cases hs⟩

theorem own_of {w : World} {info : Info} {d : Bytes} {P : Proc} {s : Slot} (h : Inv w info d P) (hs : s ∈ P.slots)
    (hi : s.sys.torrent.info = some info) : Own w info d P.fs s := by
  rcases h.slots s hs with ⟨h1, -⟩ | ⟨info', n, h1, -, -, h4⟩
  · rw [h1.info] at hi; cases hi
  · exact h4 (by rw [h1.hasInfo] at hi; exact Option.some.inj hi)

theorem PSteps.trans {w : World} {Q : Info → Prop} {P P' P'' : Proc} (h1 : PSteps w Q P P') (h2 : PSteps w Q P' P'') : PSteps w Q P P'' := by
  induction h2 with
  | refl => exact h1
  | tail _ h3 h4 ih => exact .tail ih h3 h4

/-- C69, pieces: a piece that a writer has written is on disk as published from then on, however often the process is stopped (also while it is
writing) and started again, and whatever other torrents do; or a collision has been exhibited. Files of any length may have been in the way.
Missing: torrents listing the same files, files in `downloads` or called `test.log`, layouts that clash, are not made of ordinary names or have
a directory in the place of a file (or a file in the place of a directory). -/
theorem C69_pieces_partial {w : World} {info : Info} {d : Bytes} {fs : FS} {P P' : Proc} {s : Slot} (hd : Describes w.sha info d)
    (hlay : Placeable w.cwd fs (listedFiles info) d info.pieceLength) (hres : Unreserved info)
    (h1 : PSteps w (Beside info) (Proc.init fs) P) (hs : s ∈ P.slots) (hi : s.sys.torrent.info = some info)
    (h2 : PSteps w (Beside info) P P') :
    (∃ r, (info, r) ∈ P'.taken ∧ Collision w.sha r.piece (piece d info.pieceLength r.idx)) ∨
    (s.sys.writerUp = true ∧ ∀ r ∈ s.sys.written, ∀ g, r.idx * info.pieceLength ≤ g → g < (r.idx + 1) * info.pieceLength → g < d.length →
      diskByte P'.fs w.cwd (listedFiles info) g = d[g]?) := by
  rcases inv_steps hd hres (inv_init hlay) (h1.trans h2) with ⟨r, hr, -, hc⟩ | ⟨i1, -⟩
  · exact .inl ⟨r, hr, hc⟩
  · rcases inv_steps hd hres (inv_init hlay) h1 with hf | ⟨j1, -⟩
    · have : ForgedP w info d P' := by
        clear i1
        induction h2 with
        | refl => exact hf
        | tail _ hst _ ih => exact forgedP_step ih hst
      obtain ⟨r, hr, -, hc⟩ := this
      exact .inl ⟨r, hr, hc⟩
    · rcases inv_steps hd hres j1 h2 with ⟨r, hr, -, hc⟩ | ⟨-, hk⟩
      · exact .inl ⟨r, hr, hc⟩
      · have ho := own_keeps j1.layout.clear hk (own_of j1 hs hi)
        refine .inr ⟨ho.up, ?_⟩
        intro r hr g g1 g2 g3
        obtain ⟨-, ps, hps, hod⟩ := ho.written r hr
        exact pieceParts_byte hps hod g1 g2 g3

/-- C69, files over what was there: once all pieces of a torrent have been written each of its files is as published, followed by what was beyond
its listed length before the process was started first, from then on, however often the process is stopped and started again, and whatever other
torrents do; or a collision has been exhibited. Missing: as for `C69_pieces_partial`. -/
theorem C69_over_partial {w : World} {info : Info} {d : Bytes} {fs : FS} {P P' : Proc} {s : Slot} (hd : Describes w.sha info d)
    (hlay : Placeable w.cwd fs (listedFiles info) d info.pieceLength) (hres : Unreserved info)
    (h1 : PSteps w (Beside info) (Proc.init fs) P) (hs : s ∈ P.slots) (hi : s.sys.torrent.info = some info)
    (hall : ∀ i, i < pieceCount d.length info.pieceLength → i ∈ s.sys.written.map Ready.idx)
    (h2 : PSteps w (Beside info) P P') :
    (∃ r, (info, r) ∈ P'.taken ∧ Collision w.sha r.piece (piece d info.pieceLength r.idx)) ∨ FilesOver fs P'.fs w.cwd (listedFiles info) d := by
  rcases inv_steps hd hres (inv_init hlay) (h1.trans h2) with ⟨r, hr, -, hc⟩ | ⟨-, hk0⟩
  · exact .inl ⟨r, hr, hc⟩
  rcases inv_steps hd hres (inv_init hlay) h1 with hf | ⟨j1, -⟩
  · have : ForgedP w info d P' := by
      clear hk0
      induction h2 with
      | refl => exact hf
      | tail _ hst _ ih => exact forgedP_step ih hst
    obtain ⟨r, hr, -, hc⟩ := this
    exact .inl ⟨r, hr, hc⟩
  · rcases inv_steps hd hres j1 h2 with ⟨r, hr, -, hc⟩ | ⟨i1, hk⟩
    · exact .inl ⟨r, hr, hc⟩
    · have ho := own_keeps j1.layout.clear hk (own_of j1 hs hi)
      refine .inr fun k f hkf hpos => ?_
      have := files_beyond (ε := Unit) (m := w.build) i1.layout (fun i hic => by
        obtain ⟨r, hr, rfl⟩ := List.mem_map.mp (hall i hic)
        exact (ho.written r hr).2) k f hkf hpos
      rw [this, (hk0 hlay.clear).2.2 f (List.mem_of_getElem? hkf)]
      rfl

/-- C69, files: once all pieces of a torrent have been written its files are as published from then on (and otherwise they never are) exactly if no
longer file was in the way before the process was started first, however often the process is stopped and started again, and whatever other
torrents do; or a collision has been exhibited. Missing: as for `C69_pieces_partial`. -/
theorem C69_exactly_partial {w : World} {info : Info} {d : Bytes} {fs : FS} {P P' : Proc} {s : Slot} (hd : Describes w.sha info d)
    (hlay : Placeable w.cwd fs (listedFiles info) d info.pieceLength) (hres : Unreserved info)
    (h1 : PSteps w (Beside info) (Proc.init fs) P) (hs : s ∈ P.slots) (hi : s.sys.torrent.info = some info)
    (hall : ∀ i, i < pieceCount d.length info.pieceLength → i ∈ s.sys.written.map Ready.idx)
    (h2 : PSteps w (Beside info) P P') :
    (∃ r, (info, r) ∈ P'.taken ∧ Collision w.sha r.piece (piece d info.pieceLength r.idx)) ∨
    (FilesRight P'.fs w.cwd (listedFiles info) d ↔ NoneLonger fs w.cwd (listedFiles info)) :=
  (C69_over_partial hd hlay hres h1 hs hi hall h2).imp_right over_right

/-- C69, files: with room for them, the files of a torrent are as published once all pieces have been written, from then on; or a collision has been
exhibited. Missing: as for `C69_pieces_partial`; see `C69_exactly_partial` for files in the way. -/
theorem C69_files_partial {w : World} {info : Info} {d : Bytes} {fs : FS} {P P' : Proc} {s : Slot} (hd : Describes w.sha info d)
    (hlay : Layout w.cwd fs (listedFiles info) d info.pieceLength) (hres : Unreserved info)
    (h1 : PSteps w (Beside info) (Proc.init fs) P) (hs : s ∈ P.slots) (hi : s.sys.torrent.info = some info)
    (hall : ∀ i, i < pieceCount d.length info.pieceLength → i ∈ s.sys.written.map Ready.idx)
    (h2 : PSteps w (Beside info) P P') :
    (∃ r, (info, r) ∈ P'.taken ∧ Collision w.sha r.piece (piece d info.pieceLength r.idx)) ∨ FilesRight P'.fs w.cwd (listedFiles info) d :=
  (C69_over_partial hd hlay.placeable hres h1 hs hi hall h2).imp_right (over_layout hlay)

/-! ### A run of one torrent is a run of the process -/

theorem writeAll_steps {w : World} {Q : Info → Prop} {k : Nat} {sys : Sys} (ws : List FileWriter) : ∀ {P : Proc} {fs : FS},
    P.slots[k]? = some ⟨sys, some ws⟩ → (∀ s ∈ P.slots, ∀ i, s.sys.torrent.info = some i → Q i) →
    (writeAllParts w.cwd P.fs ws : Res Unit Unit × FS) = (.ok (), fs) →
    PSteps w Q P { P with slots := P.slots.set k ⟨sys, some []⟩, fs } := by
  induction ws with
  | nil =>
    intro P fs hk hq h
    simp only [writeAllParts, Prod.mk.injEq, true_and] at h
    subst h
    have : P.slots.set k ⟨sys, some []⟩ = P.slots := by
      obtain ⟨hlt, e⟩ := List.getElem?_eq_some_iff.mp hk
      rw [← e, List.set_getElem_self]
    rw [this]
    exact .refl _
  | cons x xs ih =>
    intro P fs hk hq h
    rw [writeAllParts] at h
    split at h
    · rename_i fs1 hx
      have hlt := (List.getElem?_eq_some_iff.mp hk).1
      have hq' : ∀ s ∈ P.slots.set k ⟨sys, some xs⟩, ∀ i, s.sys.torrent.info = some i → Q i := by
        intro s hs i hi
        rcases List.mem_or_eq_of_mem_set hs with hs | rfl
        · exact hq s hs i hi
        · exact hq _ (List.mem_of_getElem? hk) i hi
      have st := PStep.part (w := w) P k _ x xs fs1 hk rfl hx
      have := ih (P := { P with slots := P.slots.set k ⟨sys, some xs⟩, fs := fs1 }) (by simp [hlt]) hq' h
      simp only [List.set_set] at this
      exact (PSteps.tail (.refl _) st hq').trans this
    · rename_i hno
      exact absurd h (by intro h'; exact hno _ (by rw [h']))

/-- Torrent `k` of the process is in the state `s`, and its writer is not in the middle of a piece. -/
def At (P : Proc) (k : Nat) (s : Sys) : Prop := ∃ x, P.slots[k]? = some ⟨x, none⟩ ∧ { x with fs := P.fs } = s

theorem up_before {w : World} {s t : Sys} (hst : Step w s t) (h : t.writerUp = true) : s.writerUp = true := by
  cases hst with
  | write r ready hu => exact hu
  | _ => exact h

theorem lift_step {w : World} {Q : Info → Prop} {P : Proc} {k : Nat} {s t : Sys} (hat : At P k s) (hst : Step w s t) (hup : t.writerUp = true)
    (hknown : s.ready ≠ [] → s.torrent.info ≠ none) (hQ : ∀ x ∈ P.slots, ∀ i, x.sys.torrent.info = some i → Q i) (hQt : ∀ i, t.torrent.info = some i → Q i) :
    ∃ P', PSteps w Q P P' ∧ At P' k t ∧ (P'.log = P.log ∧ P'.said = P.said) ∧ (∀ j, j ≠ k → P'.slots[j]? = P.slots[j]?) ∧
      (∀ x ∈ P'.slots, ∀ i, x.sys.torrent.info = some i → Q i) := by
  obtain ⟨x, hk, rfl⟩ := hat
  have hlt := (List.getElem?_eq_some_iff.mp hk).1
  have qset : ∀ y : Slot, (∀ i, y.sys.torrent.info = some i → Q i) → ∀ z ∈ P.slots.set k y, ∀ i, z.sys.torrent.info = some i → Q i := by
    intro y hy z hz i hi
    rcases List.mem_or_eq_of_mem_set hz with hz | rfl
    · exact hQ z hz i hi
    · exact hy i hi
  by_cases hw : t.written = x.written
  · have st := PStep.act (w := w) P k _ t hk hst hw
    exact ⟨_, .tail (.refl _) st (qset _ hQt), ⟨t, by simp [hlt], rfl⟩, ⟨rfl, rfl⟩, fun j hj => by simp [List.getElem?_set_ne (Ne.symm hj)], qset _ hQt⟩
  · cases hst with
    | write r ready hu hr res fs' hwr =>
      have hr' : x.ready = r :: ready := hr
      cases hi : x.torrent.info with
      | none => exact absurd hi (hknown (by rw [hr]; simp))
      | some info =>
        have hres : res = .ok () := by
          cases res with
          | ok u => rfl
          | err e => cases hup
          | panic => cases hup
          | hang => cases hup
        subst hres
        unfold writePiece at hwr
        cases hg : (getFileWriters w.build r.files r.piece r.idx r.pieceLength : Res Unit (List FileWriter)) with
        | ok ws =>
          rw [hg] at hwr
          simp only [] at hwr
          have st := PStep.begin (w := w) P k _ r ready info ws hk rfl hu hr' hi hg
          have q1 := qset ⟨x, some ws⟩ (fun i h => hQ _ (List.mem_of_getElem? hk) i h)
          have s2 := writeAll_steps (w := w) (Q := Q) (k := k) (sys := x) ws (P := ⟨P.slots.set k ⟨x, some ws⟩, P.fs, P.taken ++ [(info, r)], P.log, P.said⟩) (by simp [hlt]) q1 hwr
          simp only [List.set_set] at s2
          have s3 := PStep.end (w := w) ⟨P.slots.set k ⟨x, some []⟩, fs', P.taken ++ [(info, r)], P.log, P.said⟩ k ⟨x, some []⟩ r ready (by simp [hlt]) rfl hr'
          simp only [List.set_set] at s3
          have q3 := qset (Slot.done ⟨x, some []⟩ r ready true) hQt
          exact ⟨_, ((PSteps.tail (.refl _) st q1).trans s2).trans (.tail (.refl _) s3 q3), ⟨{ x with ready, written := x.written ++ [r], writerUp := true }, by simp [hlt, Slot.done], rfl⟩, ⟨rfl, rfl⟩,
            fun j hj => by simp [List.getElem?_set_ne (Ne.symm hj)], q3⟩
        | err e => rw [hg] at hwr; cases hwr
        | panic => rw [hg] at hwr; cases hwr
        | hang => rw [hg] at hwr; cases hwr
    | announce => exact absurd rfl hw
    | take => exact absurd rfl hw
    | finishOk => exact absurd rfl hw
    | finishErr => exact absurd rfl hw
    | finishPanic => exact absurd rfl hw
    | success => exact absurd rfl hw
    | failed => exact absurd rfl hw
    | collect => exact absurd rfl hw
    | found => exact absurd rfl hw

theorem ready_known {w : World} {s : Sys} (h : Among w s) : s.ready ≠ [] → s.torrent.info ≠ none := by
  rcases among_inv h with h | ⟨info, n, h⟩
  · exact fun hr => absurd h.ready hr
  · rw [h.hasInfo]; exact fun _ => by simp

theorem lift_steps {w : World} {Q : Info → Prop} {P : Proc} {k : Nat} {s t : Sys} (hr : Among w s) (hat : At P k s) (hst : Steps w s t) :
    t.writerUp = true → (∀ x ∈ P.slots, ∀ i, x.sys.torrent.info = some i → Q i) → (∀ i, t.torrent.info = some i → Q i) →
    ∃ P', PSteps w Q P P' ∧ At P' k t ∧ (P'.log = P.log ∧ P'.said = P.said) ∧ (∀ j, j ≠ k → P'.slots[j]? = P.slots[j]?) ∧
      (∀ x ∈ P'.slots, ∀ i, x.sys.torrent.info = some i → Q i) := by
  induction hst with
  | refl => exact fun _ hQ _ => ⟨P, .refl _, hat, ⟨rfl, rfl⟩, fun _ _ => rfl, hQ⟩
  | @tail u v hs hst ih =>
    intro hup hQ hQt
    have hru := among_steps hr hs
    obtain ⟨P1, p1, p2, p3, p4, p5⟩ := ih (up_before hst hup) hQ (fun i hi => hQt i (C45_fixed hru hi (.single hst)).1)
    obtain ⟨P2, q1, q2, q3, q4, q5⟩ := lift_step p2 hst hup (ready_known hru) p5 hQt
    exact ⟨P2, p1.trans q1, q2, ⟨by rw [q3.1, p3.1], by rw [q3.2, p3.2]⟩, fun j hj => by rw [q4 j hj, p4 j hj], q5⟩

/-! ### What a torrent with metadata changes on disk -/

theorem names_plain {path : List Bytes} (h : Plain path) : names (joinPath path) = path := by
  have := congrArg PathBuf.comps (parse_plain _ h)
  exact this

theorem inward_plain {path : List Bytes} (h : Plain path) : Inward (joinPath path) := by
  have h1 := parse_plain _ h
  have ha := congrArg PathBuf.absolute h1
  have hc := congrArg PathBuf.comps h1
  simp only [PathBuf.parse] at ha hc
  refine ⟨by simpa using ha, ?_⟩
  intro hm
  have : b!".." ∈ path := by
    rw [← hc]
    exact List.mem_filter.mpr ⟨hm, by decide⟩
  exact (h.2 _ this).2.2.1 rfl

/-- All changes are on the way to listed files. -/
def OnlyFiles (cwd : Loc) (files : List File) (fs fs' : FS) : Prop := ∀ l, fs' l ≠ fs l → ∃ f ∈ files, ∃ q, q <+: f.path ∧ l = cwd ++ q

theorem onlyFiles_trans {cwd : Loc} {files : List File} {a b c : FS} (h1 : OnlyFiles cwd files a b) (h2 : OnlyFiles cwd files b c) : OnlyFiles cwd files a c := by
  intro l hl
  by_cases h : c l = b l
  · exact h1 l (by rw [← h]; exact hl)
  · exact h2 l h

theorem writeAllParts_frame {ε : Type} {cwd : Loc} {files : List File} (hplain : ∀ f ∈ files, Plain f.path) (ws : List FileWriter) : ∀ (fs : FS),
    (∀ x ∈ ws, ∃ f ∈ files, f.path = x.path) → OnlyFiles cwd files fs (writeAllParts cwd fs ws : Res ε Unit × FS).2 := by
  induction ws with
  | nil => exact fun fs _ l hl => absurd rfl hl
  | cons x xs ih =>
    intro fs hx
    obtain ⟨f, hf, e⟩ := hx x (by simp)
    have hp : Plain x.path := by rw [← e]; exact hplain f hf
    have h1 : OnlyFiles cwd files fs (x.writeToFilesystem cwd fs : Res ε Unit × FS).2 := by
      intro l hl
      rcases writeToFilesystem_touch (inward_plain hp) l hl with ⟨-, q, -, hq, -, e'⟩ | e'
      · rw [names_plain hp, ← e] at hq
        exact ⟨f, hf, q, hq, e'⟩
      · rw [names_plain hp, ← e] at e'
        exact ⟨f, hf, f.path, List.prefix_refl _, e'⟩
    rw [writeAllParts]
    split
    · rename_i fs1 hw
      rw [hw] at h1
      exact onlyFiles_trans h1 (ih fs1 (fun y hy => hx y (List.mem_cons_of_mem _ hy)))
    · exact h1

theorem frame_steps {w : World} {info : Info} {n : Nat} {s t : Sys} (h : Known w info n s) (hplain : ∀ f ∈ listedFiles info, Plain f.path)
    (hst : Steps w s t) : OnlyFiles w.cwd (listedFiles info) s.fs t.fs := by
  induction hst with
  | refl => exact fun l hl => absurd rfl hl
  | @tail u v hs hst ih =>
    refine onlyFiles_trans ih ?_
    have hk := known_steps h hs
    cases hst with
    | collect p rest hd hm hi => rw [hk.hasInfo] at hi; cases hi
    | write r ready hu hr res fs' hwr =>
      simp only []
      unfold writePiece at hwr
      cases hg : (getFileWriters w.build r.files r.piece r.idx r.pieceLength : Res Unit (List FileWriter)) with
      | ok ws =>
        rw [hg] at hwr
        have := writeAllParts_frame (ε := Unit) (cwd := w.cwd) hplain ws u.fs (paths_listed hk hr hg)
        simp only [] at hwr
        rw [hwr] at this
        exact this
      | err e => rw [hg] at hwr; cases hwr; exact fun l hl => absurd rfl hl
      | panic => rw [hg] at hwr; cases hwr; exact fun l hl => absurd rfl hl
      | hang => rw [hg] at hwr; cases hwr; exact fun l hl => absurd rfl hl
    | announce => exact fun l hl => absurd rfl hl
    | take => exact fun l hl => absurd rfl hl
    | finishOk => exact fun l hl => absurd rfl hl
    | finishErr => exact fun l hl => absurd rfl hl
    | finishPanic => exact fun l hl => absurd rfl hl
    | success => exact fun l hl => absurd rfl hl
    | failed => exact fun l hl => absurd rfl hl
    | found => exact fun l hl => absurd rfl hl

/-- A torrent whose metadata is in the cache is added to a running process and finishes, before anything else happens. -/
theorem run_torrent_over {w : World} {Q : Info → Prop} {P : Proc} {info : Info} {d body infoHash : Bytes} (hsha : ∀ b, (w.sha b).length = 20)
    (ha : addMagnet w.build body = (.ok, some infoHash)) (hlog : P.log ≠ none) (hd : Describes w.sha info d) (hfit : Fits info d) (hpos : 0 < d.length)
    (ht : Typed info) (hlay : Placeable w.cwd P.fs (listedFiles info) d info.pieceLength)
    (hdl : ∀ f ∈ listedFiles info, f.path.head? ≠ some b!"downloads") (hc : Cached P.fs w.cwd infoHash info)
    (hQ : ∀ x ∈ P.slots, ∀ i, x.sys.torrent.info = some i → Q i) (hQi : Q info) :
    ∃ P' t, PSteps w Q P P' ∧ (P'.log = P.log ∧ P'.said = P.said) ∧ At P' P.slots.length t ∧ t.torrent.info = some info ∧ flight t = [] ∧ t.lost = [] ∧ t.ready = [] ∧
      (∀ i, i < pieceCount d.length info.pieceLength → i ∈ t.written.map Ready.idx) ∧
      FilesOver P.fs P'.fs w.cwd (listedFiles info) d ∧ OnlyFiles w.cwd (listedFiles info) P.fs P'.fs ∧
      (∀ j, j < P.slots.length → P'.slots[j]? = P.slots[j]?) ∧ (∀ x ∈ P'.slots, ∀ i, x.sys.torrent.info = some i → Q i) := by
  have hlen : 2 < infoHash.length := by
    have := addMagnet_length ha
    omega
  obtain ⟨s, t, s1, s2, s3, s4, hup, s5, s6, s7, s8, s9, s10⟩ := finish_cached_over hsha hlen hd hfit hpos ht hlay hdl hc
  obtain ⟨n, hk⟩ := among_known (among_of s1) s3
  have hframe := frame_steps hk hlay.plain s4
  rw [s2] at hframe
  have st := PStep.add (w := w) P hlog body infoHash ha
  have q1 : ∀ x ∈ P.slots ++ [⟨Sys.init infoHash P.fs, none⟩], ∀ i, x.sys.torrent.info = some i → Q i := by
    intro x hx i hi
    rcases List.mem_append.mp hx with hx | hx
    · exact hQ x hx i hi
    · rw [List.mem_singleton.mp hx] at hi
      cases hi
  obtain ⟨P', p1, p2, p3, p4, p5⟩ := lift_steps (w := w) (Q := Q) (P := { P with slots := P.slots ++ [⟨Sys.init infoHash P.fs, none⟩] }) (k := P.slots.length) (s := Sys.init infoHash P.fs) (t := t)
    (.init _ _) ⟨Sys.init infoHash P.fs, by simp, rfl⟩ (s1.trans s4) hup q1 (by intro i hi; rw [s5] at hi; cases hi; exact hQi)
  have hfs : t.fs = P'.fs := by
    obtain ⟨x, -, e⟩ := p2
    rw [← e]
  refine ⟨P', t, (PSteps.tail (.refl _) st q1).trans p1, p3, p2, s5, s6, s7, s8, ?_, ?_, ?_, ?_, p5⟩
  · intro i hi
    have := s9 i hi
    rw [handed, s8, List.append_nil] at this
    exact this
  · rw [← hfs]; exact s10
  · rw [← hfs]; exact hframe
  · intro j hj
    rw [p4 j (by omega)]
    simp only []
    rw [List.getElem?_append_left hj]

theorem run_torrent {w : World} {Q : Info → Prop} {P : Proc} {info : Info} {d body infoHash : Bytes} (hsha : ∀ b, (w.sha b).length = 20)
    (ha : addMagnet w.build body = (.ok, some infoHash)) (hlog : P.log ≠ none) (hd : Describes w.sha info d) (hfit : Fits info d) (hpos : 0 < d.length)
    (ht : Typed info) (hlay : Layout w.cwd P.fs (listedFiles info) d info.pieceLength)
    (hdl : ∀ f ∈ listedFiles info, f.path.head? ≠ some b!"downloads") (hc : Cached P.fs w.cwd infoHash info)
    (hQ : ∀ x ∈ P.slots, ∀ i, x.sys.torrent.info = some i → Q i) (hQi : Q info) :
    ∃ P' t, PSteps w Q P P' ∧ (P'.log = P.log ∧ P'.said = P.said) ∧ At P' P.slots.length t ∧ t.torrent.info = some info ∧ flight t = [] ∧ t.lost = [] ∧ t.ready = [] ∧
      (∀ i, i < pieceCount d.length info.pieceLength → i ∈ t.written.map Ready.idx) ∧
      FilesRight P'.fs w.cwd (listedFiles info) d ∧ OnlyFiles w.cwd (listedFiles info) P.fs P'.fs ∧
      (∀ j, j < P.slots.length → P'.slots[j]? = P.slots[j]?) ∧ (∀ x ∈ P'.slots, ∀ i, x.sys.torrent.info = some i → Q i) := by
  obtain ⟨P', t, h1, h2, h3, h4, h5, h6, h7, h8, h9, h10⟩ := run_torrent_over hsha ha hlog hd hfit hpos ht hlay.placeable hdl hc hQ hQi
  exact ⟨P', t, h1, h2, h3, h4, h5, h6, h7, h8, over_layout hlay h9, h10⟩

/-! ### Small torrents -/

/-- A torrent of one file of three bytes, in two pieces. -/
def small (sha : Bytes → Bytes) (name : Bytes) (x y z : UInt8) : Info := ⟨none, some 3, name, 2, sha [x, y] ++ sha [z]⟩

theorem small_describes {sha : Bytes → Bytes} (hsha : ∀ b, (sha b).length = 20) (name : Bytes) (x y z : UInt8) :
    Describes sha (small sha name x y z) [x, y, z] where
  total := rfl
  pieceLength := by show 0 < 2; decide
  hashes := by
    intro k hk
    have : k = 0 ∨ k = 1 := by
      have : k < pieceCount 3 2 := hk
      rw [show pieceCount 3 2 = 2 by decide] at this
      omega
    rcases this with rfl | rfl
    · have := hsha [x, y]
      show (((sha [x, y] ++ sha [z]).drop 0).take 20) = sha [x, y]
      rw [List.drop_zero, List.take_append_of_le_length (by omega), List.take_of_length_le (by omega)]
    · have := hsha [z]
      show (((sha [x, y] ++ sha [z]).drop 20).take 20) = sha [z]
      rw [List.drop_append_of_le_length (by rw [hsha]; omega), List.drop_of_length_le (by rw [hsha]; omega), List.nil_append,
        List.take_of_length_le (by omega)]

theorem small_fits (sha : Bytes → Bytes) (name : Bytes) (x y z : UInt8) : Fits (small sha name x y z) [x, y, z] :=
  ⟨by show 3 < 2 ^ 64; decide, by show pieceCount 3 2 ≤ 2 ^ 32; decide, by show 2 * pieceCount 3 2 < 2 ^ 64; decide⟩

theorem small_typed (sha : Bytes → Bytes) {name : Bytes} (h : validUtf8 name = true) (x y z : UInt8) : Typed (small sha name x y z) :=
  ⟨h, by show 2 < 2 ^ 64; decide, by intro n h; cases h; decide, by intro fs h; cases h⟩

theorem small_layout {cwd : Loc} {fs : FS} (sha : Bytes → Bytes) {name : Bytes} (x y z : UInt8) (hp : Plain [name])
    (hd : fs (cwd ++ [name]) ≠ some .dir) (hf : ∀ c, fs (cwd ++ [name]) = some (.file c) → c.length ≤ 3) :
    Layout cwd fs (listedFiles (small sha name x y z)) [x, y, z] 2 where
  plain := by
    intro f hf
    rw [List.mem_singleton.mp hf]
    exact hp
  separate := by
    intro i j f g hf hg _
    have h1 := (List.getElem?_eq_some_iff.mp hf).1
    have h2 := (List.getElem?_eq_some_iff.mp hg).1
    simp only [listedFiles, small, List.length_singleton] at h1 h2
    omega
  room := by
    intro f hf'
    rw [List.mem_singleton.mp hf']
    refine ⟨?_, hd, hf⟩
    intro q c hq hne hnil
    have hq : q <+: [name] := hq
    rw [List.prefix_cons_iff] at hq
    rcases hq with rfl | ⟨q', rfl, hq'⟩
    · exact absurd rfl hnil
    · rw [List.prefix_nil] at hq'
      subst hq'
      exact absurd rfl hne
  length := rfl
  small := by show 3 < 2 ^ 64; decide
  pieceLength := by decide

theorem small_right {cwd : Loc} {fs : FS} {sha : Bytes → Bytes} {name : Bytes} {x y z : UInt8}
    (h : FilesRight fs cwd (listedFiles (small sha name x y z)) [x, y, z]) : readFile fs (cwd ++ [name]) = some [x, y, z] :=
  h 0 ⟨[name], 3⟩ rfl (by show 0 < 3; decide)

/-- Two magnet links. -/
def magnet1 : Bytes := btihPrefix ++ b!"1111111111111111111111111111111111111111" ++ b!"&dn=x"
def magnet2 : Bytes := btihPrefix ++ b!"2222222222222222222222222222222222222222" ++ b!"&dn=x"

theorem add1 (m : Build) : addMagnet m magnet1 = (.ok, some (List.replicate 20 17)) := by cases m <;> decide +kernel
theorem add2 (m : Build) : addMagnet m magnet2 = (.ok, some (List.replicate 20 34)) := by cases m <;> decide +kernel

/-- A disk with the metadata of two torrents in the cache. -/
def twoCached (cwd : Loc) (i1 i2 : Info) : FS := fun l =>
  if l = cwd ++ [b!"downloads"] then some .dir
  else if l = cacheLoc cwd (List.replicate 20 17) then some (.file i1.json)
  else if l = cacheLoc cwd (List.replicate 20 34) then some (.file i2.json) else none

theorem createLog_ok {cwd : Loc} {fs : FS} (h : fs (cwd ++ [b!"test.log"]) ≠ some .dir) :
    ∃ fs', createLog cwd fs = .ok fs' ∧ fs' (cwd ++ [b!"test.log"]) = some (.file []) ∧ ∀ l, l ≠ cwd ++ [b!"test.log"] → fs' l = fs l := by
  have e : logPath = ⟨false, [b!"test.log"], false⟩ := by decide +kernel
  have hn : hasNul [b!"test.log"] = false := by decide
  unfold createLog FS.openCreate
  rw [e]
  simp only [hn, Bool.or_self, Bool.false_eq_true, if_false, List.getLast?_singleton, List.dropLast_singleton, FS.walk, PathBuf.base, Res.bind_ok]
  rw [if_neg (by decide)]
  cases hl : fs (cwd ++ [b!"test.log"]) with
  | none => exact ⟨_, rfl, by simp [FS.set], fun l hne => by simp [FS.set, hne]⟩
  | some n =>
    cases n with
    | dir => exact absurd hl h
    | file c => exact ⟨_, rfl, by simp [FS.set], fun l hne => by simp [FS.set, hne]⟩

theorem twoCached_other {cwd : Loc} {i1 i2 : Info} {l : Loc} (h : ∀ q, l ≠ cwd ++ b!"downloads" :: q) : twoCached cwd i1 i2 l = none := by
  unfold twoCached
  rw [if_neg (h []), if_neg (show l ≠ cacheLoc _ _ from h [percentEncode _]), if_neg (show l ≠ cacheLoc _ _ from h [percentEncode _])]

theorem torn_none (cwd : Loc) (fs : FS) (l : List Slot) : TornAll cwd fs l fs := by
  induction l with
  | nil => exact .nil _
  | cons _ _ ih => exact .skip ih

theorem name_other {cwd : Loc} {name : Bytes} (h : name ≠ b!"downloads") (r q : List Bytes) : cwd ++ name :: r ≠ cwd ++ b!"downloads" :: q := by
  intro e
  have := List.append_cancel_left e
  simp only [List.cons.injEq] at this
  exact h this.1

theorem hash_ne : percentEncode (List.replicate 20 34) ≠ percentEncode (List.replicate 20 17) := by decide +kernel

theorem twoCached_cached (cwd : Loc) (i1 i2 : Info) : Cached (twoCached cwd i1 i2) cwd (List.replicate 20 17) i1 ∧
    Cached (twoCached cwd i1 i2) cwd (List.replicate 20 34) i2 := by
  have h1 : ∀ h : Bytes, cacheLoc cwd h ≠ cwd ++ [b!"downloads"] := by
    intro h e
    have := congrArg List.length e
    simp [cacheLoc] at this
  have h2 : cacheLoc cwd (List.replicate 20 34) ≠ cacheLoc cwd (List.replicate 20 17) := by
    intro e
    have := List.append_cancel_left e
    simp only [List.cons.injEq, and_true, true_and] at this
    exact hash_ne this
  refine ⟨⟨by simp [twoCached], ?_⟩, ⟨by simp [twoCached], ?_⟩⟩
  · rw [readFile, twoCached, if_neg (h1 _), if_pos rfl]
  · rw [readFile, twoCached, if_neg (h1 _), if_neg h2, if_pos rfl]

theorem cached_same {fs fs' : FS} {cwd : Loc} {infoHash : Bytes} {info : Info} (h : Cached fs cwd infoHash info)
    (hs : ∀ q, fs' (cwd ++ b!"downloads" :: q) = fs (cwd ++ b!"downloads" :: q)) : Cached fs' cwd infoHash info := by
  refine ⟨by rw [hs []]; exact h.1, ?_⟩
  have := h.2
  unfold readFile at this ⊢
  rw [show cacheLoc cwd infoHash = cwd ++ b!"downloads" :: [percentEncode infoHash] from rfl, hs]
  exact this

theorem onlyFiles_downloads {cwd : Loc} {files : List File} {fs fs' : FS} (h : OnlyFiles cwd files fs fs')
    (hdl : ∀ f ∈ files, f.path.head? ≠ some b!"downloads") (q : List Bytes) : fs' (cwd ++ b!"downloads" :: q) = fs (cwd ++ b!"downloads" :: q) := by
  refine Classical.byContradiction fun hne => ?_
  obtain ⟨f, hf, q', hq', e⟩ := h _ hne
  rw [← List.append_cancel_left e] at hq'
  obtain ⟨r, hr⟩ := hq'
  exact hdl f hf (by rw [← hr]; rfl)

theorem small_heads (sha : Bytes → Bytes) {name c : Bytes} (h : name ≠ c) (x y z : UInt8) :
    ∀ f ∈ listedFiles (small sha name x y z), f.path.head? ≠ some c := by
  intro f hf
  rw [List.mem_singleton.mp hf]
  show some name ≠ some c
  simpa using h

/-- A process has been started on a disk with the metadata of two torrents, and has finished the first. -/
theorem first_finished {w : World} (hsha : ∀ b, (w.sha b).length = 20) (name : Bytes) (x y z : UInt8) (i2 : Info) (hp : Plain [name])
    (hu : validUtf8 name = true) (hdl : name ≠ b!"downloads") {Q : Info → Prop} (hQ : Q (small w.sha name x y z)) :
    ∃ P t, PSteps w Q (Proc.init (twoCached w.cwd (small w.sha name x y z) i2)) P ∧ (P.log = some 0 ∧ P.said = []) ∧ P.slots[0]? = some ⟨t, none⟩ ∧
      t.torrent.info = some (small w.sha name x y z) ∧ (∀ i, i < 2 → i ∈ t.written.map Ready.idx) ∧
      readFile P.fs (w.cwd ++ [name]) = some [x, y, z] ∧ (∀ q, P.fs (w.cwd ++ b!"downloads" :: q) = twoCached w.cwd (small w.sha name x y z) i2 (w.cwd ++ b!"downloads" :: q)) ∧
      (P.fs (w.cwd ++ [b!"test.log"]) ≠ some .dir) ∧
      (∀ c, c ≠ name → c ≠ b!"test.log" → P.fs (w.cwd ++ [c]) = twoCached w.cwd (small w.sha name x y z) i2 (w.cwd ++ [c])) ∧ (∀ s ∈ P.slots, ∀ i, s.sys.torrent.info = some i → Q i) := by
  obtain ⟨fs1, l1, l2, l3⟩ := createLog_ok (cwd := w.cwd) (fs := twoCached w.cwd (small w.sha name x y z) i2)
    (by rw [twoCached_other (name_other (by decide) [])]; simp)
  have hsame : ∀ q, fs1 (w.cwd ++ b!"downloads" :: q) = twoCached w.cwd (small w.sha name x y z) i2 (w.cwd ++ b!"downloads" :: q) :=
    fun q => l3 _ (fun e => name_other (by decide) [] q e.symm)
  have st := PStep.start (w := w) (Proc.init (twoCached w.cwd (small w.sha name x y z) i2)) rfl fs1 l1
  have hat : fs1 (w.cwd ++ [name]) = none ∨ fs1 (w.cwd ++ [name]) = some (.file []) := by
    by_cases e : name = b!"test.log"
    · rw [e]; exact .inr l2
    · left
      rw [l3 _ (by intro e'; have := List.append_cancel_left e'; simp at this; exact e this)]
      exact twoCached_other (name_other hdl [])
  have hat1 : fs1 (w.cwd ++ [name]) ≠ some .dir := by rcases hat with e | e <;> rw [e] <;> simp
  have hat2 : ∀ c, fs1 (w.cwd ++ [name]) = some (.file c) → c.length ≤ 3 := by
    intro c hc
    rcases hat with e | e
    · rw [e] at hc; cases hc
    · rw [e] at hc; cases hc; decide
  obtain ⟨P, t, p1, p2, p3, p4, p5, p6, p7, p8, p9, p10, p11, p12⟩ := run_torrent (w := w) (Q := Q)
    (P := ⟨[], fs1, [], some 0, []⟩) (info := small w.sha name x y z) (d := [x, y, z]) hsha (add1 w.build) (by simp) (small_describes hsha ..)
    (small_fits ..) (by simp) (small_typed _ hu ..)
    (small_layout _ _ _ _ hp hat1 hat2)
    (small_heads _ hdl _ _ _) (cached_same (twoCached_cached w.cwd _ i2).1 hsame) (fun x hx => by cases hx) hQ
  obtain ⟨x', hx', ex⟩ := p3
  refine ⟨P, x', (PSteps.tail (.refl _) st (fun s hs => by cases hs)).trans p1, p2, hx', by rw [← p4, ← ex], ?_, small_right p9, ?_, ?_, ?_, p12⟩
  · intro i hi
    have := p8 i (by show i < pieceCount 3 2; rw [show pieceCount 3 2 = 2 by decide]; exact hi)
    rw [← ex] at this
    exact this
  · intro q
    rw [onlyFiles_downloads p10 (small_heads _ hdl _ _ _)]
    exact hsame q
  · intro hd
    by_cases e : name = b!"test.log"
    · have := small_right p9
      rw [e, readFile, hd] at this
      cases this
    · have : P.fs (w.cwd ++ [b!"test.log"]) = fs1 (w.cwd ++ [b!"test.log"]) := by
        refine Classical.byContradiction fun hne => ?_
        obtain ⟨f, hf, q, hq, e'⟩ := p10 _ hne
        rw [List.mem_singleton.mp hf, ← List.append_cancel_left e'] at hq
        obtain ⟨r, hr⟩ := hq
        have hr : [b!"test.log"] ++ r = [name] := hr
        simp only [List.cons_append, List.cons.injEq] at hr
        exact e hr.1.symm
      rw [this, l2] at hd
      cases hd
  · intro c h1 h2
    rw [← l3 _ (by intro e'; have := List.append_cancel_left e'; simp at this; exact h2 this)]
    refine Classical.byContradiction fun hne => ?_
    obtain ⟨f, hf, q, hq, e'⟩ := p10 _ hne
    rw [List.mem_singleton.mp hf, ← List.append_cancel_left e'] at hq
    obtain ⟨r, hr⟩ := hq
    have hr : [c] ++ r = [name] := hr
    simp only [List.cons_append, List.cons.injEq] at hr
    exact h1 hr.1

/-- The full C69 is false: a torrent of a file called `test.log` is finished; after the process has been stopped and started again, the file is
empty. -/
theorem C69_refuted (w : World) (hsha : ∀ b, (w.sha b).length = 20) : ∃ fs info d P s P', Describes w.sha info d ∧
    Layout w.cwd fs (listedFiles info) d info.pieceLength ∧ PSteps w (Beside info) (Proc.init fs) P ∧ s ∈ P.slots ∧ s.sys.torrent.info = some info ∧
    (∀ i, i < pieceCount d.length info.pieceLength → i ∈ s.sys.written.map Ready.idx) ∧ FilesRight P.fs w.cwd (listedFiles info) d ∧
    PSteps w (Beside info) P P' ∧ ¬ FilesRight P'.fs w.cwd (listedFiles info) d ∧ P'.taken = P.taken := by
  have hp : Plain [b!"test.log"] := ⟨by simp, by
    intro c hc
    rw [List.mem_singleton.mp hc]
    decide⟩
  obtain ⟨P, t, p1, p2, p3, p4, p5, p6, p7, p8, p8', p9⟩ := first_finished hsha b!"test.log" 1 2 3 (small w.sha b!"test.log" 1 2 3) hp (by decide +kernel) (by decide)
    (Q := Beside (small w.sha b!"test.log" 1 2 3)) (.inl rfl)
  obtain ⟨fs1, l1, l2, l3⟩ := createLog_ok p8
  have s1 := PStep.stop (w := w) P P.slots (.refl _) P.fs (torn_none _ _ _)
  have s2 := PStep.start (w := w) { P with slots := [], fs := P.fs, log := none } rfl fs1 l1
  have hnone : twoCached w.cwd (small w.sha b!"test.log" 1 2 3) (small w.sha b!"test.log" 1 2 3) (w.cwd ++ [b!"test.log"]) = none :=
    twoCached_other (name_other (by decide) [])
  refine ⟨_, _, [1, 2, 3], P, _, _, small_describes hsha _ 1 2 3,
    small_layout _ _ _ _ hp (by rw [hnone]; simp) (by intro c hc; rw [hnone] at hc; cases hc), p1, List.mem_of_getElem? p3, p4, ?_, ?_,
    .tail (.tail (.refl _) s1 (fun s hs => by cases hs)) s2 (fun s hs => by cases hs), ?_, rfl⟩
  · intro i hi
    exact p5 i (by have : i < pieceCount 3 2 := hi; rw [show pieceCount 3 2 = 2 by decide] at this; exact this)
  · intro k f hk _
    cases k with
    | zero => cases hk; exact p6
    | succ k => cases hk
  · intro h
    have := small_right h
    simp only [readFile, l2] at this
    cases this

/-- C70 is false: two torrents list the same file; both are finished by one process; the file of the first is no longer right. -/
theorem C70_refuted (w : World) (hsha : ∀ b, (w.sha b).length = 20) : ∃ fs info1 info2 d1 d2 P s1 s2, Describes w.sha info1 d1 ∧ Describes w.sha info2 d2 ∧
    Layout w.cwd fs (listedFiles info1) d1 info1.pieceLength ∧ Layout w.cwd fs (listedFiles info2) d2 info2.pieceLength ∧
    PSteps w (fun _ => True) (Proc.init fs) P ∧ s1 ∈ P.slots ∧ s2 ∈ P.slots ∧ s1.sys.torrent.info = some info1 ∧ s2.sys.torrent.info = some info2 ∧
    (∀ i, i < pieceCount d1.length info1.pieceLength → i ∈ s1.sys.written.map Ready.idx) ∧
    (∀ i, i < pieceCount d2.length info2.pieceLength → i ∈ s2.sys.written.map Ready.idx) ∧
    FilesRight P.fs w.cwd (listedFiles info2) d2 ∧ ¬ FilesRight P.fs w.cwd (listedFiles info1) d1 := by
  have hp : Plain [b!"a"] := ⟨by simp, by
    intro c hc
    rw [List.mem_singleton.mp hc]
    decide⟩
  obtain ⟨P, t, p1, p2, p3, p4, p5, p6, p7, p8, p8', p9⟩ := first_finished hsha b!"a" 1 2 3 (small w.sha b!"a" 4 5 6) hp (by decide +kernel) (by decide)
    (Q := fun _ => True) trivial
  have hfile : P.fs (w.cwd ++ [b!"a"]) = some (.file [1, 2, 3]) := by
    unfold readFile at p6
    cases hf : P.fs (w.cwd ++ [b!"a"]) with
    | none => rw [hf] at p6; cases p6
    | some n =>
      cases n with
      | dir => rw [hf] at p6; cases p6
      | file c => rw [hf] at p6; cases p6; rfl
  obtain ⟨P', t', q1, q2, ⟨x', q3, ex⟩, q4, q5, q6, q7, q8, q9, q10, q11, q12⟩ := run_torrent (w := w) (Q := fun _ => True)
    (P := P) (info := small w.sha b!"a" 4 5 6) (d := [4, 5, 6]) hsha (add2 w.build) (by rw [p2.1]; simp) (small_describes hsha ..)
    (small_fits ..) (by decide) (small_typed _ (by decide +kernel) ..)
    (small_layout _ _ _ _ hp (by rw [hfile]; simp) (by intro c hc; rw [hfile] at hc; cases hc; decide))
    (small_heads _ (by decide) _ _ _) (cached_same (twoCached_cached w.cwd (small w.sha b!"a" 1 2 3) (small w.sha b!"a" 4 5 6)).2 p7) p9 trivial
  have hnone : twoCached w.cwd (small w.sha b!"a" 1 2 3) (small w.sha b!"a" 4 5 6) (w.cwd ++ [b!"a"]) = none :=
    twoCached_other (name_other (by decide) [])
  have h0 : P'.slots[0]? = some ⟨t, none⟩ := by
    rw [q11 0 (List.getElem?_eq_some_iff.mp p3).1, p3]
  refine ⟨_, _, _, [1, 2, 3], [4, 5, 6], P', _, _, small_describes hsha b!"a" 1 2 3, small_describes hsha b!"a" 4 5 6,
    small_layout _ _ _ _ hp (by rw [hnone]; simp) (by intro c hc; rw [hnone] at hc; cases hc),
    small_layout _ _ _ _ hp (by rw [hnone]; simp) (by intro c hc; rw [hnone] at hc; cases hc), p1.trans q1,
    List.mem_of_getElem? h0, List.mem_of_getElem? q3, p4, by rw [← q4, ← ex], ?_, ?_, q9, ?_⟩
  · intro i hi
    exact p5 i (by have : i < pieceCount 3 2 := hi; rw [show pieceCount 3 2 = 2 by decide] at this; exact this)
  · intro i hi
    have := q8 i hi
    rw [← ex] at this
    exact this
  · intro h
    have h1 := small_right h
    have h2 := small_right q9
    rw [h1] at h2
    cases h2

/-- Non-vacuity of `C69_pieces_partial` and `C69_files_partial`: in every world (with 20-byte hashes) there is a run with a finished torrent. -/
example (w : World) (hsha : ∀ b, (w.sha b).length = 20) : ∃ fs info d P s, Describes w.sha info d ∧ Layout w.cwd fs (listedFiles info) d info.pieceLength ∧
    Unreserved info ∧ PSteps w (Beside info) (Proc.init fs) P ∧ s ∈ P.slots ∧ s.sys.torrent.info = some info ∧
    ∀ i, i < pieceCount d.length info.pieceLength → i ∈ s.sys.written.map Ready.idx := by
  have hp : Plain [b!"a"] := ⟨by simp, by
    intro c hc
    rw [List.mem_singleton.mp hc]
    decide⟩
  obtain ⟨P, t, p1, p2, p3, p4, p5, p6, p7, p8, p8', p9⟩ := first_finished hsha b!"a" 1 2 3 (small w.sha b!"a" 4 5 6) hp (by decide +kernel) (by decide)
    (Q := Beside (small w.sha b!"a" 1 2 3)) (.inl rfl)
  have hnone : twoCached w.cwd (small w.sha b!"a" 1 2 3) (small w.sha b!"a" 4 5 6) (w.cwd ++ [b!"a"]) = none :=
    twoCached_other (name_other (by decide) [])
  refine ⟨_, _, [1, 2, 3], P, _, small_describes hsha _ 1 2 3, small_layout _ _ _ _ hp (by rw [hnone]; simp) (by intro c hc; rw [hnone] at hc; cases hc),
    ?_, p1, List.mem_of_getElem? p3, p4, ?_⟩
  · intro f hf
    exact ⟨small_heads _ (by decide) _ _ _ f hf, small_heads _ (by decide) _ _ _ f hf⟩
  · intro i hi
    exact p5 i (by have : i < pieceCount 3 2 := hi; rw [show pieceCount 3 2 = 2 by decide] at this; exact this)

/-! ### C70, for torrents with files elsewhere -/

/-- C70: two torrents none of whose files is, or is above or below, one of the other's; whatever the process does (stopping, starting, finishing
the one or the other first), once all pieces of both have been written both have their files from then on (exactly those in whose way
no longer file was), or a collision has been exhibited.
Missing: torrents that list the same files; as for `C69_pieces_partial`. -/
theorem C70_apart_partial {w : World} {info1 info2 : Info} {d1 d2 : Bytes} {fs : FS} {P1 P2 P' : Proc} {s1 s2 : Slot}
    (hd1 : Describes w.sha info1 d1) (hd2 : Describes w.sha info2 d2)
    (hl1 : Placeable w.cwd fs (listedFiles info1) d1 info1.pieceLength) (hl2 : Placeable w.cwd fs (listedFiles info2) d2 info2.pieceLength)
    (hr1 : Unreserved info1) (hr2 : Unreserved info2)
    (hap : ∀ f ∈ listedFiles info1, ∀ g ∈ listedFiles info2, ¬ f.path <+: g.path ∧ ¬ g.path <+: f.path)
    (h1 : PSteps w (fun i => i = info1 ∨ i = info2) (Proc.init fs) P1) (h1' : PSteps w (fun i => i = info1 ∨ i = info2) P1 P')
    (h2 : PSteps w (fun i => i = info1 ∨ i = info2) (Proc.init fs) P2) (h2' : PSteps w (fun i => i = info1 ∨ i = info2) P2 P')
    (hs1 : s1 ∈ P1.slots) (hi1 : s1.sys.torrent.info = some info1)
    (ha1 : ∀ i, i < pieceCount d1.length info1.pieceLength → i ∈ s1.sys.written.map Ready.idx)
    (hs2 : s2 ∈ P2.slots) (hi2 : s2.sys.torrent.info = some info2)
    (ha2 : ∀ i, i < pieceCount d2.length info2.pieceLength → i ∈ s2.sys.written.map Ready.idx) :
    ((∃ r, (info1, r) ∈ P'.taken ∧ Collision w.sha r.piece (piece d1 info1.pieceLength r.idx)) ∨ (FilesRight P'.fs w.cwd (listedFiles info1) d1 ↔ NoneLonger fs w.cwd (listedFiles info1))) ∧
    ((∃ r, (info2, r) ∈ P'.taken ∧ Collision w.sha r.piece (piece d2 info2.pieceLength r.idx)) ∨ (FilesRight P'.fs w.cwd (listedFiles info2) d2 ↔ NoneLonger fs w.cwd (listedFiles info2))) := by
  have mono : ∀ {Q Q' : Info → Prop} {A B : Proc}, (∀ i, Q i → Q' i) → PSteps w Q A B → PSteps w Q' A B := by
    intro Q Q' A B hQ hs
    induction hs with
    | refl => exact .refl _
    | tail _ st hq ih => exact .tail ih st (fun s hs i hi => hQ i (hq s hs i hi))
  have b1 : ∀ i, i = info1 ∨ i = info2 → Beside info1 i := by
    rintro i (rfl | rfl)
    · exact .inl rfl
    · refine .inr fun f hf => ⟨inward_plain (hl2.plain f hf), fun g hg => ?_⟩
      rw [names_plain (hl2.plain f hf)]
      exact ⟨(hap g hg f hf).2, (hap g hg f hf).1⟩
  have b2 : ∀ i, i = info1 ∨ i = info2 → Beside info2 i := by
    rintro i (rfl | rfl)
    · refine .inr fun f hf => ⟨inward_plain (hl1.plain f hf), fun g hg => ?_⟩
      rw [names_plain (hl1.plain f hf)]
      exact hap f hf g hg
    · exact .inl rfl
  exact ⟨C69_exactly_partial hd1 hl1 hr1 (mono b1 h1) hs1 hi1 ha1 (mono b1 h1'), C69_exactly_partial hd2 hl2 hr2 (mono b2 h2) hs2 hi2 ha2 (mono b2 h2')⟩

/-- Non-vacuity of `C70_apart_partial`: in every world (with 20-byte hashes) one process can finish two torrents with different files. -/
example (w : World) (hsha : ∀ b, (w.sha b).length = 20) : ∃ fs info1 info2 d1 d2 P s1 s2, Describes w.sha info1 d1 ∧ Describes w.sha info2 d2 ∧
    Layout w.cwd fs (listedFiles info1) d1 info1.pieceLength ∧ Layout w.cwd fs (listedFiles info2) d2 info2.pieceLength ∧
    Unreserved info1 ∧ Unreserved info2 ∧
    (∀ f ∈ listedFiles info1, ∀ g ∈ listedFiles info2, ¬ f.path <+: g.path ∧ ¬ g.path <+: f.path) ∧
    PSteps w (fun i => i = info1 ∨ i = info2) (Proc.init fs) P ∧ s1 ∈ P.slots ∧ s2 ∈ P.slots ∧ s1.sys.torrent.info = some info1 ∧
    s2.sys.torrent.info = some info2 ∧
    (∀ i, i < pieceCount d1.length info1.pieceLength → i ∈ s1.sys.written.map Ready.idx) ∧
    (∀ i, i < pieceCount d2.length info2.pieceLength → i ∈ s2.sys.written.map Ready.idx) := by
  have hp : ∀ c, c = b!"a" ∨ c = b!"b" → Plain [c] := by
    intro c hc
    refine ⟨by simp, ?_⟩
    intro c' hc'
    rw [List.mem_singleton.mp hc']
    rcases hc with rfl | rfl <;> decide
  obtain ⟨P, t, p1, p2, p3, p4, p5, p6, p7, p8, p8', p9⟩ := first_finished hsha b!"a" 1 2 3 (small w.sha b!"b" 4 5 6) (hp _ (.inl rfl)) (by decide +kernel) (by decide)
    (Q := fun i => i = small w.sha b!"a" 1 2 3 ∨ i = small w.sha b!"b" 4 5 6) (.inl rfl)
  have hnone : ∀ c, c ≠ b!"downloads" → twoCached w.cwd (small w.sha b!"a" 1 2 3) (small w.sha b!"b" 4 5 6) (w.cwd ++ [c]) = none :=
    fun c hc => twoCached_other (name_other hc [])
  have hb : P.fs (w.cwd ++ [b!"b"]) = none := by rw [p8' _ (by decide) (by decide), hnone _ (by decide)]
  obtain ⟨P', t', q1, q2, ⟨x', q3, ex⟩, q4, q5, q6, q7, q8, q9, q10, q11, q12⟩ := run_torrent (w := w)
    (Q := fun i => i = small w.sha b!"a" 1 2 3 ∨ i = small w.sha b!"b" 4 5 6)
    (P := P) (info := small w.sha b!"b" 4 5 6) (d := [4, 5, 6]) hsha (add2 w.build) (by rw [p2.1]; simp) (small_describes hsha ..)
    (small_fits ..) (by decide) (small_typed _ (by decide +kernel) ..)
    (small_layout _ _ _ _ (hp _ (.inr rfl)) (by rw [hb]; simp) (by intro c hc; rw [hb] at hc; cases hc))
    (small_heads _ (by decide) _ _ _) (cached_same (twoCached_cached w.cwd (small w.sha b!"a" 1 2 3) (small w.sha b!"b" 4 5 6)).2 p7) p9 (.inr rfl)
  have h0 : P'.slots[0]? = some ⟨t, none⟩ := by
    rw [q11 0 (List.getElem?_eq_some_iff.mp p3).1, p3]
  have hres : ∀ c x y z, c = b!"a" ∨ c = b!"b" → Unreserved (small w.sha c x y z) := by
    intro c x y z hc f hf
    rw [List.mem_singleton.mp hf]
    show some c ≠ some b!"downloads" ∧ some c ≠ some b!"test.log"
    rcases hc with rfl | rfl <;> decide
  refine ⟨_, _, _, [1, 2, 3], [4, 5, 6], P', _, _, small_describes hsha b!"a" 1 2 3, small_describes hsha b!"b" 4 5 6,
    small_layout _ _ _ _ (hp _ (.inl rfl)) (by rw [hnone _ (by decide)]; simp) (by intro c hc; rw [hnone _ (by decide)] at hc; cases hc),
    small_layout _ _ _ _ (hp _ (.inr rfl)) (by rw [hnone _ (by decide)]; simp) (by intro c hc; rw [hnone _ (by decide)] at hc; cases hc),
    hres _ _ _ _ (.inl rfl), hres _ _ _ _ (.inr rfl), ?_, p1.trans q1,
    List.mem_of_getElem? h0, List.mem_of_getElem? q3, p4, by rw [← q4, ← ex], ?_, ?_⟩
  · intro f hf g hg
    rw [List.mem_singleton.mp hf, List.mem_singleton.mp hg]
    show ¬ [b!"a"] <+: [b!"b"] ∧ ¬ [b!"b"] <+: [b!"a"]
    decide
  · intro i hi
    exact p5 i (by have : i < pieceCount 3 2 := hi; rw [show pieceCount 3 2 = 2 by decide] at this; exact this)
  · intro i hi
    have := q8 i hi
    rw [← ex] at this
    exact this

/-! ### C71 -/

theorem hex_ascii {bs cs : Bytes} (h : Hex bs cs) : ∀ c ∈ cs, c < 0x80 := by
  have digit : ∀ {c : UInt8} {n : Nat}, HexDigit c n → c < 0x80 := by
    intro c n h
    have : ∀ k, k < 128 → UInt8.ofNat k < 0x80 := by decide
    cases h <;> exact this _ (by omega)
  induction h with
  | nil => intro c hc; cases hc
  | cons h1 h2 h ih =>
    intro c hc
    simp only [List.mem_cons] at hc
    rcases hc with rfl | rfl | hc
    · exact digit h1
    · exact digit h2
    · exact ih c hc

theorem btih_ascii : ∀ c ∈ btihPrefix, c < 0x80 := by decide

/-- C71, hexadecimal magnet links with a further parameter are answered, and the torrent they name is started. Missing: links without further
parameters, bodies that are not magnet links (refuted below). -/
theorem C71_hex_partial (m : Build) (hash digits params : Bytes) (hl : hash.length = 20) (hx : Hex hash digits)
    (hu : validUtf8 params = true) (hn : params.length ≤ 262083) :
    addMagnet m (btihPrefix ++ digits ++ c!"&" :: params) = (.ok, some hash) := by
  have hd : digits.length = 40 := by rw [hex_length hx, hl]
  have hlen : (btihPrefix ++ digits ++ c!"&" :: params).length = 61 + params.length := by
    simp [btihPrefix, hd]; omega
  have hu' : validUtf8 (btihPrefix ++ digits ++ c!"&" :: params) = true := by
    rw [List.append_assoc, validUtf8_ascii_append _ _ btih_ascii, validUtf8_ascii_append _ _ (hex_ascii hx), validUtf8_cons_ascii _ (by decide), hu]
  unfold addMagnet
  rw [if_neg (by omega), hu', C18_hex_magnet_partial m hash digits params hl hx]
  rfl

/-- C71: a torrent is started if and only if the answer is 200. -/
theorem C71_started_iff_ok (m : Build) (body : Bytes) : (addMagnet m body).2.isSome ↔ (addMagnet m body).1 = .ok := by
  unfold addMagnet
  split
  · simp
  · split
    · simp
    · split <;> simp

/-- C71, exactly which requests are not answered, in either build: those whose body is small enough and text, but not a magnet link of more than
60 bytes; in a debug build also those with `&` at position 60 and a byte below `0` among the forty before it. -/
theorem C71_exact (m : Build) (body : Bytes) : (addMagnet m body).1 = .dropped ↔
    body.length ≤ 262144 ∧ validUtf8 body = true ∧ (body.length ≤ 60 ∨ ¬ b!"magnet:?" <+: body ∨
      (m = .debug ∧ body[60]? = some c!"&" ∧ ∃ c ∈ (body.take 60).drop 20, c < 48)) := by
  have hp := C20_exact m body
  have he : (∃ e, Magnet.parseMagnet m body = .err e) ↔ body.length < 60 ∨ ¬ b!"magnet:?" <+: body := by
    rw [parseMagnet_cases]
    by_cases hv : body.length < 60 ∨ ¬ b!"magnet:?" <+: body
    · rw [if_pos hv]; exact ⟨fun _ => hv, fun _ => ⟨_, rfl⟩⟩
    · rw [if_neg hv]
      simp only [hv, iff_false]
      rintro ⟨e, h⟩
      split at h
      · cases h
      · split at h
        · have := hexDecode_panic m ((body.take 60).drop 20) (by simp; omega)
          by_cases hd : m = .debug ∧ ∃ c ∈ (body.take 60).drop 20, c < 48
          · rw [this.mpr hd] at h; cases h
          · obtain ⟨r, hr⟩ := hexDecode_ok m ((body.take 60).drop 20) (by
              cases m with
              | release => exact .inl rfl
              | debug =>
                refine .inr (fun c hc => ?_)
                have := fun h' => hd ⟨rfl, c, hc, h'⟩
                simpa using this)
            rw [hr] at h; cases h
        · cases h
  have hh : Magnet.parseMagnet m body ≠ .hang := by
    rw [parseMagnet_cases]
    split
    · simp
    · split
      · simp
      · split
        · by_cases hd : m = .debug ∧ ∃ c ∈ (body.take 60).drop 20, c < 48
          · rw [(hexDecode_panic m ((body.take 60).drop 20) (by rename_i h _; have := (List.getElem?_eq_some_iff.mp ‹body[60]? = _›).1; simp; omega)).mpr hd]; simp
          · obtain ⟨r, hr⟩ := hexDecode_ok m ((body.take 60).drop 20) (by
              cases m with
              | release => exact .inl rfl
              | debug =>
                refine .inr (fun c hc => ?_)
                have := fun h' => hd ⟨rfl, c, hc, h'⟩
                simpa using this)
            rw [hr]; simp
        · simp
  unfold addMagnet
  split
  · rename_i h
    simp; omega
  · rename_i h
    cases hu : validUtf8 body with
    | false => simp
    | true =>
      have hle : body.length ≤ 262144 := by omega
      simp only [Bool.not_true, Bool.false_eq_true, if_false, hle, true_and]
      have e1 : (body.length ≤ 60 ∨ ¬ b!"magnet:?" <+: body ∨ (m = .debug ∧ body[60]? = some c!"&" ∧ ∃ c ∈ (body.take 60).drop 20, c < 48)) ↔
          (∃ e, Magnet.parseMagnet m body = .err e) ∨ Magnet.parseMagnet m body = .panic := by
        rw [he, hp]
        by_cases h8 : b!"magnet:?" <+: body
        · simp only [h8, not_true, false_or, or_false, true_and]
          rw [Nat.le_iff_lt_or_eq, or_assoc]
        · simp [h8]
      rw [e1]
      revert hh
      cases hx : Magnet.parseMagnet m body with
      | err e => simp only [true_iff]; exact fun _ => .inl ⟨e, trivial⟩
      | _ => simp

/-- Non-vacuity: a request only a release build answers. -/
example : (addMagnet .debug (btihPrefix ++ List.replicate 39 c!"0" ++ b!"-&")).1 = .dropped ∧
    (addMagnet .release (btihPrefix ++ List.replicate 39 c!"0" ++ b!"-&")).1 = .ok := by
  constructor <;> decide +kernel

/-- The full C71 is false: a magnet link for any hash without further parameters gets no answer and starts nothing. -/
theorem C71_refuted (m : Build) (hash digits : Bytes) (hl : hash.length = 20) (hx : Hex hash digits) :
    addMagnet m (btihPrefix ++ digits) = (.dropped, none) := by
  have hd : digits.length = 40 := by rw [hex_length hx, hl]
  have hlen : (btihPrefix ++ digits).length = 60 := by simp [btihPrefix, hd]
  have hu : validUtf8 (btihPrefix ++ digits) = true := by
    rw [validUtf8_ascii_append _ _ btih_ascii, validUtf8_of_ascii _ (hex_ascii hx)]
  unfold addMagnet
  rw [if_neg (by omega), hu, C18_refuted m hash digits hl hx]
  rfl

/-- Nor is text that is not a magnet link refused: the connection is dropped. -/
example (m : Build) : addMagnet m b!"hello" = (.dropped, none) := by cases m <;> decide +kernel

end RustBit
