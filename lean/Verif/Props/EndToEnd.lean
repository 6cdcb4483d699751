/-
C66: from the published content to the files on disk, through the whole system.
-/
import Verif.Spec.EndToEnd
import Verif.Props.Actors

namespace RustBit
open Spec

/-! ### Getting the metadata touches only the cache -/

theorem mkdir_downloads {fs fs' : FS} {cwd : Loc} (h : fs.mkdir cwd [b!"downloads"] = .ok fs') : OnlyBelow (cwd ++ [b!"downloads"]) fs fs' := by
  have hn : hasNul [b!"downloads"] = false := by decide
  unfold FS.mkdir at h
  rw [hn] at h
  simp only [Bool.false_eq_true, if_false, List.getLast?_singleton, List.dropLast_singleton, FS.walk, Res.bind_ok] at h
  rw [if_neg (by decide)] at h
  split at h
  · cases h
  · simp only [Res.ok.injEq] at h
    rw [← h]
    exact onlyBelow_set _ _ _ _ (List.prefix_refl _)

theorem createDirAll_downloads (fs : FS) (cwd : Loc) : OnlyBelow (cwd ++ [b!"downloads"]) fs (fs.createDirAll cwd [b!"downloads"]).2 := by
  unfold FS.createDirAll
  rw [List.reverse_singleton, FS.createDirAllRev, List.reverse_singleton]
  split
  · rename_i h; exact mkdir_downloads h
  · rw [FS.createDirAllRev]
    simp only []
    split
    · rename_i h; exact mkdir_downloads h
    · split <;> exact onlyBelow_refl _ _
  · split <;> exact onlyBelow_refl _ _

theorem save_below (i : Info) (cwd : Loc) (fs : FS) {a : Bytes} (ha : 2 < a.length) (room : Nat) :
    OnlyBelow (cwd ++ [b!"downloads"]) fs (i.save cwd fs (cachePath a) room).2 := by
  have hsafe := C62_safe a
  obtain ⟨n1, n2, n3⟩ := hsafe.2.2.2 ha
  have hp := cachePath_parse (hsafe.2.1 _ (by decide)) n1 n2
  have hpre : cwd ++ [b!"downloads"] <+: cwd ++ [b!"downloads"] ++ [percentEncode a] := List.prefix_append _ _
  unfold Info.save
  rw [hp]
  split
  · rename_i l fs1 ho
    unfold FS.openCreate at ho
    split at ho
    · cases ho
    · simp only [List.getLast?_cons_cons, List.getLast?_singleton, List.dropLast_cons_cons, List.dropLast_singleton, FS.walk, PathBuf.base] at ho
      rw [if_neg (by decide)] at ho
      cases hd : fs (cwd ++ [b!"downloads"]) with
      | none =>
        simp only [Bool.false_eq_true, if_false] at ho
        rw [hd] at ho; cases ho
      | some n =>
        cases n with
        | file c =>
          simp only [Bool.false_eq_true, if_false] at ho
          rw [hd] at ho; cases ho
        | dir =>
          simp only [Bool.false_eq_true, if_false] at ho
          rw [hd] at ho
          simp only [Res.bind_ok] at ho
          rw [if_neg n3] at ho
          split at ho
          · cases ho
          · simp only [Res.ok.injEq, Prod.mk.injEq] at ho
            rw [← ho.1, ← ho.2]
            exact onlyBelow_set _ _ _ _ hpre
          · simp only [Res.ok.injEq, Prod.mk.injEq] at ho
            rw [← ho.1, ← ho.2]
            exact onlyBelow_trans (onlyBelow_set _ _ _ _ hpre) (onlyBelow_set _ _ _ _ hpre)
  · exact onlyBelow_refl _ _

/-- Getting the metadata changes nothing outside `downloads`. -/
theorem collectInfo_below {ε : Type} (m : Build) (cwd : Loc) (fs : FS) (dial : Dial) (f : Nat) (peerId : Bytes) {infoHash : Bytes} (h : 2 < infoHash.length)
    (room : Nat) : OnlyBelow (cwd ++ [b!"downloads"]) fs (collectInfo m cwd fs dial f peerId infoHash room : Res ε (Option Info) × FS).2 := by
  have h1 := createDirAll_downloads fs cwd
  unfold collectInfo
  rw [downloads_comps]
  have e : (PathBuf.mk false [b!"downloads"] false).base cwd = cwd := rfl
  rw [e]
  simp only []
  split
  · rename_i fs1 hc
    rw [hc] at h1
    have hs := fun i : Info => save_below i cwd fs1 h room
    split
    · exact h1
    · split
      · rename_i i _
        have := onlyBelow_trans h1 (hs i)
        split <;> rename_i hv <;> rw [hv] at this <;> exact this
      all_goals exact h1
    all_goals exact h1
  all_goals (rename_i hc; rw [hc] at h1; exact h1)

/-! ### What the writer has done -/

theorem listedFiles_spec {i : Info} {files : List File} (h : i.getFiles = .ok files) : files = listedFiles i := by
  unfold Info.getFiles at h
  unfold listedFiles
  cases hf : i.files with
  | some fs => rw [hf] at h; cases h; rfl
  | none =>
    cases hl : i.length with
    | none => rw [hf, hl] at h; cases h
    | some n => rw [hf, hl] at h; cases h; rfl

theorem contentLength_listed (i : Info) : contentLength i = total (listedFiles i) := by
  unfold contentLength listedFiles
  cases i.files with
  | some fs => rfl
  | none => simp [total]

/-- The writer is alive, the files can be placed, the pieces taken by the writer are those published, and on disk, and what was on the disk
`fs` beyond the listed lengths is there still. -/
structure WritesRight (w : World) (info : Info) (d : Bytes) (fs : FS) (s : Sys) : Prop where
  up : s.writerUp = true
  layout : Placeable w.cwd s.fs (listedFiles info) d info.pieceLength
  beyond : ∀ f ∈ listedFiles info, beyond s.fs w.cwd f = Spec.beyond fs w.cwd f
  onDisk : ∀ r ∈ s.written, r.piece = piece d info.pieceLength r.idx ∧
    ∃ ps, PieceParts Unit w.build (listedFiles info) d info.pieceLength r.idx ps ∧ ∀ p ∈ ps, OnDisk s.fs w.cwd (listedFiles info) p

/-- The writer has got a piece that has the right hash and is not the published one. -/
def Forged (w : World) (info : Info) (d : Bytes) (s : Sys) : Prop :=
  ∃ r ∈ s.written, r.idx < pieceCount d.length info.pieceLength ∧ Collision w.sha r.piece (piece d info.pieceLength r.idx)

theorem known_count {w : World} {info : Info} {n : Nat} {s : Sys} {d : Bytes} (h : Known w info n s) (hd : Describes w.sha info d)
    (h64 : d.length < 2 ^ 64) : n = pieceCount d.length info.pieceLength := by
  have hc : contentLength info = d.length := by rw [contentLength_listed, hd.total]
  rw [pieceTotal_count (.inr (by rw [hc]; exact h64)) h.total, count, hc]
  rfl

theorem idx_lt {w : World} {info : Info} {n : Nat} {s : Sys} (h : Known w info n s) {r : Ready} (hr : r ∈ s.written ++ s.ready) : r.idx < n := by
  have : r.idx ∈ waiting s ++ flight s ++ handed s ++ s.lost :=
    List.mem_append_left _ (List.mem_append_right _ (List.mem_map.mpr ⟨r, hr, rfl⟩))
  exact List.mem_range.mp (h.perm.mem_iff.mp this)

theorem writes_step {w : World} {fs0 : FS} {info : Info} {n : Nat} {d : Bytes} {s t : Sys} (h : Known w info n s) (hd : Describes w.sha info d)
    (hw : WritesRight w info d fs0 s) (hst : Step w s t) : Forged w info d t ∨ WritesRight w info d fs0 t := by
  cases hst with
  | announce => exact .inr ⟨hw.up, hw.layout, hw.beyond, hw.onDisk⟩
  | take => exact .inr ⟨hw.up, hw.layout, hw.beyond, hw.onDisk⟩
  | finishOk => exact .inr ⟨hw.up, hw.layout, hw.beyond, hw.onDisk⟩
  | finishErr => exact .inr ⟨hw.up, hw.layout, hw.beyond, hw.onDisk⟩
  | finishPanic => exact .inr ⟨hw.up, hw.layout, hw.beyond, hw.onDisk⟩
  | success => exact .inr ⟨hw.up, hw.layout, hw.beyond, hw.onDisk⟩
  | failed => exact .inr ⟨hw.up, hw.layout, hw.beyond, hw.onDisk⟩
  | found => exact .inr ⟨hw.up, hw.layout, hw.beyond, hw.onDisk⟩
  | collect p rest hd' hm hi => rw [h.hasInfo] at hi; cases hi
  | write r ready hu hr res fs hwr =>
    have hmem : r ∈ s.written ++ s.ready := by rw [hr]; simp
    have hlt : r.idx < pieceCount d.length info.pieceLength := by
      rw [← known_count h hd hw.layout.small]; exact idx_lt h hmem
    obtain ⟨⟨-, hsha⟩, hfiles, hpl⟩ := h.ready r hmem
    have hfiles' := listedFiles_spec hfiles
    by_cases hp : r.piece = piece d info.pieceLength r.idx
    · right
      obtain ⟨ps, hps⟩ := pieceParts (ε := Unit) (m := w.build) hw.layout.length hw.layout.small hw.layout.pieceLength hlt
      obtain ⟨fs1, e1, r1, o1, k1, -, -, -, b1⟩ := write_clear (ε := Unit) ps hw.layout.plain hw.layout.separate hw.layout.clear hps.right
      have he : (writePiece w.build w.cwd s.fs r.piece r.idx r.files r.pieceLength : Res Unit Unit × FS) = (.ok (), fs1) := by
        rw [hp, hfiles', hpl, writePiece, hps.writers]
        simp only []
        rw [e1]
      rw [he] at hwr
      cases hwr
      refine ⟨rfl, ⟨hw.layout.plain, hw.layout.separate, r1, hw.layout.length, hw.layout.small, hw.layout.pieceLength⟩, fun f hf => (b1 f hf).trans (hw.beyond f hf), ?_⟩
      intro r' hr'
      rcases List.mem_append.mp hr' with hr' | hr'
      · obtain ⟨hp', qs, hqs, ho⟩ := hw.onDisk r' hr'
        exact ⟨hp', qs, hqs, fun p hp => k1 p (hqs.right p hp) (ho p hp)⟩
      · rw [List.mem_singleton.mp hr']
        exact ⟨hp, ps, hps, o1⟩
    · left
      refine ⟨r, by simp, hlt, hp, ?_⟩
      rw [hsha, ← hd.hashes _ hlt, Nat.mul_comm]

theorem forged_steps {w : World} {info : Info} {d : Bytes} {s t : Sys} (h : Forged w info d s) (hst : Step w s t) : Forged w info d t := by
  obtain ⟨r, hr, h⟩ := h
  refine ⟨r, ?_, h⟩
  cases hst with
  | write => exact List.mem_append_left _ hr
  | _ => exact hr

/-- From the moment the metadata is known. -/
theorem writes_steps {w : World} {fs0 : FS} {info : Info} {n : Nat} {d : Bytes} {s t : Sys} (h : Known w info n s) (hd : Describes w.sha info d)
    (hw : WritesRight w info d fs0 s) (hst : Steps w s t) : Forged w info d t ∨ WritesRight w info d fs0 t := by
  induction hst with
  | refl => exact .inr hw
  | tail hs hst ih =>
    rcases ih with ih | ih
    · exact .inl (forged_steps ih hst)
    · exact writes_step (known_steps h hs) hd ih hst

theorem same_below {cwd : Loc} {fs fs' : FS} {files : List File} (hdl : ∀ f ∈ files, f.path.head? ≠ some b!"downloads")
    (hb : OnlyBelow (cwd ++ [b!"downloads"]) fs fs') : ∀ f ∈ files, ∀ q, q <+: f.path → fs' (cwd ++ q) = fs (cwd ++ q) := by
  intro f hf q hq
  refine Classical.byContradiction fun hne => ?_
  have := hb _ hne
  rw [List.prefix_append_right_inj] at this
  obtain ⟨r, hr⟩ := this.trans hq
  apply hdl f hf
  rw [← hr]
  rfl

theorem placeable_below {cwd : Loc} {fs fs' : FS} {files : List File} {d : Bytes} {pl : Nat} (h : Placeable cwd fs files d pl)
    (hdl : ∀ f ∈ files, f.path.head? ≠ some b!"downloads") (hb : OnlyBelow (cwd ++ [b!"downloads"]) fs fs') : Placeable cwd fs' files d pl := by
  refine ⟨h.plain, h.separate, ?_, h.length, h.small, h.pieceLength⟩
  have same := same_below hdl hb
  intro f hf
  obtain ⟨h1, h2⟩ := h.clear f hf
  refine ⟨?_, ?_⟩
  · intro q c hq hne hne2
    rw [same f hf q hq]
    exact h1 q c hq hne hne2
  · rw [same f hf _ (List.prefix_refl _)]; exact h2

theorem onCollected_infoHash (m : Build) (t : Torrent) (c : Res Unit (Option Info)) : (t.onCollected m c).torrent.infoHash = t.infoHash := by
  rw [Torrent.onCollected.eq_def]
  cases c with
  | ok o =>
    cases o with
    | none => rfl
    | some info =>
      simp only []
      cases (pieceTotal m info : Res Unit Nat) <;> rfl
  | err _ => rfl
  | panic => rfl
  | hang => rfl

/-- From the start of the program, when the listed files are not in `downloads`. -/
theorem writes_reachable {w : World} {info : Info} {d infoHash : Bytes} {fs : FS} (hlen : 2 < infoHash.length) (hd : Describes w.sha info d)
    (hlay : Placeable w.cwd fs (listedFiles info) d info.pieceLength) (hdl : ∀ f ∈ listedFiles info, f.path.head? ≠ some b!"downloads")
    {s : Sys} (hst : Steps w (Sys.init infoHash fs) s) :
    (Fresh s ∧ s.torrent.infoHash = infoHash ∧ s.writerUp = true ∧ OnlyBelow (w.cwd ++ [b!"downloads"]) fs s.fs) ∨
    (∃ info' n, Known w info' n s ∧ (info' = info → Forged w info d s ∨ WritesRight w info d fs s)) := by
  induction hst with
  | refl => exact .inl ⟨fresh_init _ _, rfl, rfl, onlyBelow_refl _ _⟩
  | @tail s t hs hst ih =>
    rcases ih with ⟨hf, hh, hu, hb⟩ | ⟨info', n, hk, hw⟩
    · have key : t.torrent.infoHash = infoHash ∧ t.writerUp = true ∧ t.written = [] ∧ OnlyBelow (w.cwd ++ [b!"downloads"]) fs t.fs := by
        cases hst with
        | announce => exact ⟨hh, hu, hf.written, hb⟩
        | take _ _ hq => rw [hf.queue] at hq; cases hq
        | finishOk pre post r hq => rw [hf.busy] at hq; simp at hq
        | finishErr pre post r hq => rw [hf.busy] at hq; simp at hq
        | finishPanic pre post r hq => rw [hf.busy] at hq; simp at hq
        | write _ _ _ hr => rw [hf.ready] at hr; cases hr
        | success endpoint piece idx rest hd hm =>
          obtain ⟨p, e, -⟩ := hf.mail _ (by rw [hm]; exact List.mem_cons_self ..)
          cases e
        | failed endpoint idx rest hd hm =>
          obtain ⟨p, e, -⟩ := hf.mail _ (by rw [hm]; exact List.mem_cons_self ..)
          cases e
        | found p rest hd hm info' hi' => rw [hf.info] at hi'; cases hi'
        | collect p rest hd hm hi tcp f peerId room collected fs' hnh hc =>
          refine ⟨?_, hu, hf.written, ?_⟩
          · show (((s.torrent.addPeer p).onCollected w.build collected).torrent).infoHash = infoHash
            rw [onCollected_infoHash]
            exact hh
          · have := collectInfo_below (ε := Unit) w.build w.cwd s.fs (dialOf p.endpoint tcp) f peerId (infoHash := s.torrent.infoHash)
              (by rw [hh]; exact hlen) room
            rw [hc] at this
            exact onlyBelow_trans hb this
      rcases fresh_step hf hst with h' | ⟨info', n, hk⟩
      · exact .inl ⟨h', key.1, key.2.1, key.2.2.2⟩
      · refine .inr ⟨info', n, hk, fun e => .inr ⟨key.2.1, placeable_below hlay hdl key.2.2.2, fun f hf => ?_, ?_⟩⟩
        · simp only [beyond, readFile, same_below hdl key.2.2.2 f hf _ (List.prefix_refl _)]
        intro r hr
        rw [key.2.2.1] at hr
        cases hr
    · refine .inr ⟨info', n, known_step hk hst, fun e => ?_⟩
      subst e
      rcases hw rfl with hw | hw
      · exact .inl (forged_steps hw hst)
      · exact writes_step hk hd hw hst

/-! ### C66 -/

/-- C66, at every moment of every run: what the writer has taken is on disk as published, the writer is alive, or a collision has been
exhibited. Missing: layouts that clash, are not made of ordinary names, lie in `downloads` or in the way of which there is something else. -/
theorem C66_always_partial {w : World} {info : Info} {d infoHash : Bytes} {fs : FS} {s : Sys} (hlen : 2 < infoHash.length)
    (hd : Describes w.sha info d) (hlay : Placeable w.cwd fs (listedFiles info) d info.pieceLength)
    (hdl : ∀ f ∈ listedFiles info, f.path.head? ≠ some b!"downloads")
    (hst : Steps w (Sys.init infoHash fs) s) (hi : s.torrent.info = some info) :
    (∃ r ∈ s.written, Collision w.sha r.piece (piece d info.pieceLength r.idx)) ∨
    (s.writerUp = true ∧ ∀ r ∈ s.written, ∀ g, r.idx * info.pieceLength ≤ g → g < (r.idx + 1) * info.pieceLength → g < d.length →
      diskByte s.fs w.cwd (listedFiles info) g = d[g]?) := by
  rcases writes_reachable (by omega) hd hlay hdl hst with ⟨h, -⟩ | ⟨info', n, hk, hw⟩
  · rw [h.info] at hi; cases hi
  · have : info' = info := by rw [hk.hasInfo] at hi; exact Option.some.inj hi
    rcases hw this with ⟨r, hr, -, hc⟩ | hw
    · exact .inl ⟨r, hr, hc⟩
    · refine .inr ⟨hw.up, ?_⟩
      intro r hr g h1 h2 h3
      obtain ⟨-, ps, hps, ho⟩ := hw.onDisk r hr
      exact pieceParts_byte hps ho h1 h2 h3

/-- The files are right exactly if none was longer. -/
theorem over_right {fs0 fs : FS} {cwd : Loc} {files : List File} {d : Bytes} (h : FilesOver fs0 fs cwd files d) :
    FilesRight fs cwd files d ↔ NoneLonger fs0 cwd files := by
  refine ⟨fun hr f hf hpos c hfc => ?_, fun hs k f hk hpos => ?_⟩
  · obtain ⟨k, hk⟩ := List.getElem?_of_mem hf
    have := h k f hk hpos
    rw [hr k f hk hpos, hfc] at this
    exact List.drop_eq_nil_iff.mp (append_self_nil (Option.some.inj this).symm)
  · rw [h k f hk hpos]
    cases hfc : readFile fs0 (cwd ++ f.path) with
    | none => simp
    | some c => rw [Option.getD_some, List.drop_of_length_le (hs f (List.mem_of_getElem? hk) hpos c hfc), List.append_nil]

theorem over_layout {fs0 fs : FS} {cwd : Loc} {files : List File} {d : Bytes} {pl : Nat} (hlay : Layout cwd fs0 files d pl)
    (h : FilesOver fs0 fs cwd files d) : FilesRight fs cwd files d := by
  refine (over_right h).mpr fun f hf _ c hc => (hlay.room f hf).2.2 c ?_
  unfold readFile at hc
  split at hc
  · rename_i c' hc'
    rw [hc', Option.some.inj hc]
  · cases hc

/-- C66, whatever files are there before: after any run in which every piece was handed to the writer and the writer has taken them, every
listed non-empty file is its part of the published content followed by what was there beyond its length, or a collision has been exhibited. Missing: as above. -/
theorem C66_over_partial {w : World} {info : Info} {d infoHash : Bytes} {fs : FS} {s : Sys} (hlen : 2 < infoHash.length)
    (hd : Describes w.sha info d) (hlay : Placeable w.cwd fs (listedFiles info) d info.pieceLength)
    (hdl : ∀ f ∈ listedFiles info, f.path.head? ≠ some b!"downloads")
    (hst : Steps w (Sys.init infoHash fs) s) (hi : s.torrent.info = some info)
    (hall : ∀ i, i < pieceCount d.length info.pieceLength → i ∈ handed s) (hready : s.ready = []) :
    (∃ r ∈ s.written, Collision w.sha r.piece (piece d info.pieceLength r.idx)) ∨
    FilesOver fs s.fs w.cwd (listedFiles info) d := by
  rcases writes_reachable (by omega) hd hlay hdl hst with ⟨h, -⟩ | ⟨info', n, hk, hw⟩
  · rw [h.info] at hi; cases hi
  · have : info' = info := by rw [hk.hasInfo] at hi; exact Option.some.inj hi
    rcases hw this with ⟨r, hr, -, hc⟩ | hw
    · exact .inl ⟨r, hr, hc⟩
    · refine .inr fun k f hkf hpos => ?_
      have hb := hw.beyond f (List.mem_of_getElem? hkf)
      rw [Spec.beyond, Spec.beyond] at hb
      rw [← hb]
      refine files_beyond (ε := Unit) (m := w.build) hw.layout ?_ k f hkf hpos
      intro i hic
      have := hall i hic
      rw [handed, hready, List.append_nil] at this
      obtain ⟨r, hr, rfl⟩ := List.mem_map.mp this
      exact (hw.onDisk r hr).2

/-- C66: after any run in which every piece was handed to the writer and the writer has taken them, every listed non-empty file is as
published, or a collision has been exhibited. Missing: layouts that clash, are not made of ordinary names, lie in `downloads` or have no room. -/
theorem C66_end_to_end_partial {w : World} {info : Info} {d infoHash : Bytes} {fs : FS} {s : Sys} (hlen : 2 < infoHash.length)
    (hd : Describes w.sha info d) (hlay : Layout w.cwd fs (listedFiles info) d info.pieceLength)
    (hdl : ∀ f ∈ listedFiles info, f.path.head? ≠ some b!"downloads")
    (hst : Steps w (Sys.init infoHash fs) s) (hi : s.torrent.info = some info)
    (hall : ∀ i, i < pieceCount d.length info.pieceLength → i ∈ handed s) (hready : s.ready = []) :
    (∃ r ∈ s.written, Collision w.sha r.piece (piece d info.pieceLength r.idx)) ∨ FilesRight s.fs w.cwd (listedFiles info) d := by
  rcases C66_over_partial hlen hd hlay.placeable hdl hst hi hall hready with h | h
  · exact .inl h
  · exact .inr (over_layout hlay h)

theorem at_rest_over {w : World} {info : Info} {d infoHash : Bytes} {fs : FS} {s : Sys} (hlen : 2 < infoHash.length)
    (hd : Describes w.sha info d) (hlay : Placeable w.cwd fs (listedFiles info) d info.pieceLength)
    (hdl : ∀ f ∈ listedFiles info, f.path.head? ≠ some b!"downloads")
    (hst : Steps w (Sys.init infoHash fs) s) (hi : s.torrent.info = some info) (hs : s.torrent.initiated = true)
    (hf : flight s = []) (hl : s.lost = []) (hready : s.ready = []) :
    (∃ r ∈ s.written, Collision w.sha r.piece (piece d info.pieceLength r.idx)) ∨ FilesOver fs s.fs w.cwd (listedFiles info) d := by
  refine C66_over_partial hlen hd hlay hdl hst hi ?_ hready
  intro i hic
  have hc : contentLength info = d.length := by rw [contentLength_listed, hd.total]
  have := C43_all_handed_partial (among_of hst) hi (.inr (by rw [hc]; exact hlay.small)) hs hl hf
  refine this.mem_iff.mpr (List.mem_range.mpr ?_)
  rw [count, hc]
  exact hic

/-- C66, when a run has come to rest: a started torrent with nothing in flight, no dead worker and an idle writer has all files right, or a
collision has been exhibited. -/
theorem C66_at_rest_partial {w : World} {info : Info} {d infoHash : Bytes} {fs : FS} {s : Sys} (hlen : 2 < infoHash.length)
    (hd : Describes w.sha info d) (hlay : Layout w.cwd fs (listedFiles info) d info.pieceLength)
    (hdl : ∀ f ∈ listedFiles info, f.path.head? ≠ some b!"downloads")
    (hst : Steps w (Sys.init infoHash fs) s) (hi : s.torrent.info = some info) (hs : s.torrent.initiated = true)
    (hf : flight s = []) (hl : s.lost = []) (hready : s.ready = []) :
    (∃ r ∈ s.written, Collision w.sha r.piece (piece d info.pieceLength r.idx)) ∨ FilesRight s.fs w.cwd (listedFiles info) d := by
  rcases at_rest_over hlen hd hlay.placeable hdl hst hi hs hf hl hready with h | h
  · exact .inl h
  · exact .inr (over_layout hlay h)

/-- C66, exactly when the files are right in the end: a started torrent with nothing in flight, no dead worker and an idle writer has all
files right if and only if no longer file was there at the start; or a collision has been exhibited. Missing: as for
`C66_always_partial`. -/
theorem C66_exact_partial {w : World} {info : Info} {d infoHash : Bytes} {fs : FS} {s : Sys} (hlen : 2 < infoHash.length)
    (hd : Describes w.sha info d) (hlay : Placeable w.cwd fs (listedFiles info) d info.pieceLength)
    (hdl : ∀ f ∈ listedFiles info, f.path.head? ≠ some b!"downloads")
    (hst : Steps w (Sys.init infoHash fs) s) (hi : s.torrent.info = some info) (hs : s.torrent.initiated = true)
    (hf : flight s = []) (hl : s.lost = []) (hready : s.ready = []) :
    (∃ r ∈ s.written, Collision w.sha r.piece (piece d info.pieceLength r.idx)) ∨
    (FilesRight s.fs w.cwd (listedFiles info) d ↔ NoneLonger fs w.cwd (listedFiles info)) := by
  rcases at_rest_over hlen hd hlay hdl hst hi hs hf hl hready with h | h
  · exact .inl h
  · exact .inr (over_right h)

end RustBit
