/-
C66, exactly, for files whose paths are made of anything: what the disk is like at the end of a run.
-/
import Verif.Props.Anywhere
import Verif.Props.LogOthers
import Verif.Proofs.Race
import Verif.Props.Finish

namespace RustBit
open Spec

/-! ### What looking for the metadata does to the disk -/

/-- What looking for metadata may do: make `downloads`, and a file for the cache. -/
structure Tried (cwd : Loc) (infoHash : Bytes) (fs fs1 : FS) : Prop where
  elsewhere : ∀ l, l ≠ cwd ++ [b!"downloads"] → l ≠ cacheLoc cwd infoHash → fs1 l = fs l
  dir : fs1 (cwd ++ [b!"downloads"]) = fs (cwd ++ [b!"downloads"]) ∨
    fs (cwd ++ [b!"downloads"]) = none ∧ fs1 (cwd ++ [b!"downloads"]) = some .dir
  file : fs1 (cacheLoc cwd infoHash) = fs (cacheLoc cwd infoHash) ∨
    fs (cacheLoc cwd infoHash) ≠ some .dir ∧ ∃ c, fs1 (cacheLoc cwd infoHash) = some (.file c)

/-- The disk when the metadata have been found: `downloads` and the file for the cache are there, as files and directories of other kinds were not before, and nothing else has
changed. -/
structure Prepared (cwd : Loc) (infoHash : Bytes) (fs fs1 : FS) : Prop where
  elsewhere : ∀ l, l ≠ cwd ++ [b!"downloads"] → l ≠ cacheLoc cwd infoHash → fs1 l = fs l
  noFile : ∀ c, fs (cwd ++ [b!"downloads"]) ≠ some (.file c)
  dir : fs1 (cwd ++ [b!"downloads"]) = some .dir
  noDir : fs (cacheLoc cwd infoHash) ≠ some .dir
  file : ∃ c, fs1 (cacheLoc cwd infoHash) = some (.file c)

theorem tried_refl (cwd : Loc) (infoHash : Bytes) (fs : FS) : Tried cwd infoHash fs fs := ⟨fun _ _ _ => rfl, .inl rfl, .inl rfl⟩

theorem tried_trans {cwd : Loc} {infoHash : Bytes} {a b c : FS} (h1 : Tried cwd infoHash a b) (h2 : Tried cwd infoHash b c) : Tried cwd infoHash a c := by
  refine ⟨fun l e1 e2 => (h2.elsewhere l e1 e2).trans (h1.elsewhere l e1 e2), ?_, ?_⟩
  · rcases h1.dir with h | ⟨h, h'⟩ <;> rcases h2.dir with k | ⟨k, k'⟩
    · exact .inl (k.trans h)
    · exact .inr ⟨by rw [← h, k], k'⟩
    · exact .inr ⟨h, by rw [k, h']⟩
    · exact .inr ⟨h, k'⟩
  · rcases h1.file with h | ⟨h, x, h'⟩ <;> rcases h2.file with k | ⟨k, y, k'⟩
    · exact .inl (k.trans h)
    · exact .inr ⟨by rw [← h]; exact k, y, k'⟩
    · exact .inr ⟨h, x, by rw [k, h']⟩
    · exact .inr ⟨h, y, k'⟩

theorem prepared_of {cwd : Loc} {infoHash : Bytes} {a b c : FS} (h1 : Tried cwd infoHash a b) (h2 : Prepared cwd infoHash b c) : Prepared cwd infoHash a c := by
  refine ⟨fun l e1 e2 => (h2.elsewhere l e1 e2).trans (h1.elsewhere l e1 e2), fun x hx => ?_, h2.dir, fun hx => ?_, h2.file⟩
  · rcases h1.dir with h | ⟨h, -⟩
    · exact h2.noFile x (h.trans hx)
    · rw [h] at hx; cases hx
  · rcases h1.file with h | ⟨h, -⟩
    · exact h2.noDir (h.trans hx)
    · exact h hx

theorem collectInfo_tried {ε : Type} (m : Build) (cwd : Loc) (fs : FS) (dial : Dial) (f : Nat) (peerId : Bytes) {infoHash : Bytes} (h : 2 < infoHash.length)
    (room : Nat) : Tried cwd infoHash fs (collectInfo m cwd fs dial f peerId infoHash room : Res ε (Option Info) × FS).2 ∧
      ∀ i, (collectInfo m cwd fs dial f peerId infoHash room : Res ε (Option Info) × FS).1 = .ok (some i) →
        Prepared cwd infoHash fs (collectInfo m cwd fs dial f peerId infoHash room : Res ε (Option Info) × FS).2 := by
  have e : (PathBuf.mk false [b!"downloads"] false).base cwd = cwd := rfl
  have hne := cacheLoc_ne_dir cwd infoHash
  have key : ∀ fs : FS, fs (cwd ++ [b!"downloads"]) = some .dir →
      Tried cwd infoHash fs (collectInfo m cwd fs dial f peerId infoHash room : Res ε (Option Info) × FS).2 ∧
      ∀ i, (collectInfo m cwd fs dial f peerId infoHash room : Res ε (Option Info) × FS).1 = .ok (some i) →
        Prepared cwd infoHash fs (collectInfo m cwd fs dial f peerId infoHash room : Res ε (Option Info) × FS).2 := by
    intro fs hd
    rw [collectInfo_exists hd]
    have hfile : ∀ i, Info.fromFile cwd fs (cachePath infoHash) = .ok i → ∃ c, fs (cacheLoc cwd infoHash) = some (.file c) := by
      intro i hi
      unfold Info.fromFile at hi
      rw [readToString_cache h hd] at hi
      cases hc : fs (cacheLoc cwd infoHash) with
      | none => simp [readFile, hc] at hi
      | some n =>
        cases n with
        | dir => simp [readFile, hc] at hi
        | file c => exact ⟨c, rfl⟩
    cases hff : Info.fromFile cwd fs (cachePath infoHash) with
    | ok i =>
      obtain ⟨c, hc⟩ := hfile i hff
      exact ⟨tried_refl .., fun _ _ => ⟨fun _ _ _ => rfl, fun _ => by rw [hd]; simp, hd, by rw [hc]; simp, c, hc⟩⟩
    | err _ =>
      simp only []
      cases (getInfo m dial f peerId infoHash : Res _ Info) with
      | err e => exact ⟨tried_refl .., fun i hi => by cases hi⟩
      | panic => exact ⟨tried_refl .., fun i hi => by cases hi⟩
      | hang => exact ⟨tried_refl .., fun i hi => by cases hi⟩
      | ok i =>
        simp only []
        have hs : (i.save cwd fs (cachePath infoHash) room = (.panic, fs)) ∨
            fs (cacheLoc cwd infoHash) ≠ some .dir ∧ (i.save cwd fs (cachePath infoHash) room).2 (cacheLoc cwd infoHash) = some (.file (i.json.take room)) ∧
              ∀ l, l ≠ cacheLoc cwd infoHash → (i.save cwd fs (cachePath infoHash) room).2 l = fs l := by
          unfold Info.save
          rw [openCreate_cache h hd]
          cases hc : fs (cacheLoc cwd infoHash) with
          | none => exact .inr ⟨by simp, by simp [FS.set], fun l hl => by simp [FS.set, hl]⟩
          | some n =>
            cases n with
            | dir => exact .inl rfl
            | file c => exact .inr ⟨by simp, by simp [FS.set], fun l hl => by simp [FS.set, hl]⟩
        rcases hs with hs | ⟨h1, h2, h3⟩
        · rw [hs]
          exact ⟨tried_refl .., fun i hi => by cases hi⟩
        · have ht : Tried cwd infoHash fs (i.save cwd fs (cachePath infoHash) room).2 :=
            ⟨fun l _ hl => h3 l hl, .inl (h3 _ hne), .inr ⟨h1, _, h2⟩⟩
          have hca : Prepared cwd infoHash fs (i.save cwd fs (cachePath infoHash) room).2 :=
            ⟨fun l _ hl => h3 l hl, fun _ => by rw [hd]; simp, by rw [h3 _ hne, hd], h1, _, h2⟩
          split <;> rename_i hv <;> rw [hv] at ht hca <;> exact ⟨ht, fun i hi => by first | exact hca | cases hi⟩
    | panic => exact ⟨tried_refl .., fun i hi => by cases hi⟩
    | hang => exact ⟨tried_refl .., fun i hi => by cases hi⟩
  cases hd : fs (cwd ++ [b!"downloads"]) with
  | none =>
    have hd' : (fs.set (cwd ++ [b!"downloads"]) .dir) (cwd ++ [b!"downloads"]) = some .dir := by simp [FS.set]
    have hsame : collectInfo m cwd fs dial f peerId infoHash room =
        (collectInfo m cwd (fs.set (cwd ++ [b!"downloads"]) .dir) dial f peerId infoHash room : Res ε (Option Info) × FS) := by
      unfold collectInfo
      simp only [downloads_comps, e, createDirAll_absent hd, createDirAll_exists hd']
    have ht : Tried cwd infoHash fs (fs.set (cwd ++ [b!"downloads"]) .dir) :=
      ⟨fun l hl _ => by simp [FS.set, hl], .inr ⟨hd, hd'⟩, .inl (by simp [FS.set, Ne.symm hne])⟩
    obtain ⟨k1, k2⟩ := key _ hd'
    rw [hsame]
    exact ⟨tried_trans ht k1, fun i hi => prepared_of ht (k2 i hi)⟩
  | some n =>
    cases n with
    | dir => exact key fs hd
    | file c =>
      have : (collectInfo m cwd fs dial f peerId infoHash room : Res ε (Option Info) × FS).1 = .panic ∧
          (collectInfo m cwd fs dial f peerId infoHash room : Res ε (Option Info) × FS).2 = fs := by
        unfold collectInfo
        simp only [downloads_comps, e, createDirAll_blocked hd]
        exact ⟨trivial, trivial⟩
      rw [this.1, this.2]
      exact ⟨tried_refl .., fun i hi => by cases hi⟩

/-! ### The disk of a run is that of its writes -/

/-- The writer has taken published pieces, and the disk is what writing these in that order to `fs` leads to; the writer is up just if that works. -/
structure Follows (w : World) (info : Info) (d : Bytes) (fs : FS) (s : Sys) : Prop where
  pieces : ∀ r ∈ s.written, r.piece = piece d info.pieceLength r.idx
  disk : (writePieces w.build w.cwd (listedFiles info) d info.pieceLength fs (s.written.map Ready.idx) : Res Unit Unit × FS).2 = s.fs
  up : (writePieces w.build w.cwd (listedFiles info) d info.pieceLength fs (s.written.map Ready.idx) : Res Unit Unit × FS).1 = .ok () ↔ s.writerUp = true

theorem writePieces_snoc {ε : Type} {m : Build} {cwd : Loc} {files : List File} {d : Bytes} {pl : Nat} : ∀ (is : List Nat) (fs : FS) (i : Nat) {fs1 : FS},
    (writePieces m cwd files d pl fs is : Res ε Unit × FS) = (.ok (), fs1) →
    (writePieces m cwd files d pl fs (is ++ [i]) : Res ε Unit × FS) = writePiece m cwd fs1 (piece d pl i) i files pl
  | [], fs, i, fs1, h => by
    cases h
    rw [List.nil_append, writePieces]
    cases hw : (writePiece m cwd fs (piece d pl i) i files pl : Res ε Unit × FS) with
    | mk r f =>
      cases r with
      | ok u => rfl
      | _ => rfl
  | j :: is, fs, i, fs1, h => by
    rw [writePieces] at h
    rw [List.cons_append, writePieces]
    cases hw : (writePiece m cwd fs (piece d pl j) j files pl : Res ε Unit × FS) with
    | mk r f =>
      rw [hw] at h
      cases r with
      | ok u => exact writePieces_snoc is f i h
      | err e => cases h
      | panic => cases h
      | hang => cases h

theorem follows_step {w : World} {fs0 : FS} {info : Info} {n : Nat} {d : Bytes} {s t : Sys} (h : Known w info n s) (hd : Describes w.sha info d)
    (h64 : d.length < 2 ^ 64) (hw : Follows w info d fs0 s) (hst : Step w s t) : Forged w info d t ∨ Follows w info d fs0 t := by
  cases hst with
  | announce => exact .inr ⟨hw.pieces, hw.disk, hw.up⟩
  | take => exact .inr ⟨hw.pieces, hw.disk, hw.up⟩
  | finishOk => exact .inr ⟨hw.pieces, hw.disk, hw.up⟩
  | finishErr => exact .inr ⟨hw.pieces, hw.disk, hw.up⟩
  | finishPanic => exact .inr ⟨hw.pieces, hw.disk, hw.up⟩
  | success => exact .inr ⟨hw.pieces, hw.disk, hw.up⟩
  | failed => exact .inr ⟨hw.pieces, hw.disk, hw.up⟩
  | found => exact .inr ⟨hw.pieces, hw.disk, hw.up⟩
  | collect p rest hd' hm hi => rw [h.hasInfo] at hi; cases hi
  | write r ready hu hr res fs hwr =>
    have hmem : r ∈ s.written ++ s.ready := by rw [hr]; simp
    have hlt : r.idx < pieceCount d.length info.pieceLength := by
      rw [← known_count h hd h64]; exact idx_lt h hmem
    obtain ⟨⟨-, hsha⟩, hfiles, hpl⟩ := h.ready r hmem
    have hfiles' := listedFiles_spec hfiles
    by_cases hp : r.piece = piece d info.pieceLength r.idx
    · right
      have hsn := writePieces_snoc (ε := Unit) (m := w.build) (cwd := w.cwd) (files := listedFiles info) (d := d) (pl := info.pieceLength)
        (s.written.map Ready.idx) fs0 r.idx (fs1 := s.fs) (by rw [← hw.disk, ← hw.up.mpr hu])
      rw [hp, hfiles', hpl] at hwr
      rw [hwr] at hsn
      have hmap : (s.written ++ [r]).map Ready.idx = s.written.map Ready.idx ++ [r.idx] := by simp
      refine ⟨?_, ?_, ?_⟩
      · intro r' hr'
        rcases List.mem_append.mp hr' with hr' | hr'
        · exact hw.pieces r' hr'
        · rw [List.mem_singleton.mp hr']; exact hp
      · show (writePieces _ _ _ _ _ _ ((s.written ++ [r]).map Ready.idx) : Res Unit Unit × FS).2 = fs
        rw [hmap, hsn]
      · simp only [hmap, hsn]
        cases res <;> simp
    · left
      refine ⟨r, by simp, hlt, hp, ?_⟩
      rw [hsha, ← hd.hashes _ hlt, Nat.mul_comm]

/-- From the start of the program. -/
theorem follows_reachable {w : World} {info : Info} {d infoHash : Bytes} {fs : FS} (hlen : 2 < infoHash.length) (hd : Describes w.sha info d)
    (h64 : d.length < 2 ^ 64) {s : Sys} (hst : Steps w (Sys.init infoHash fs) s) :
    (Fresh s ∧ s.torrent.infoHash = infoHash ∧ s.writerUp = true ∧ Tried w.cwd infoHash fs s.fs) ∨
    (∃ info' n fs1, Known w info' n s ∧ Prepared w.cwd infoHash fs fs1 ∧ (info' = info → Forged w info d s ∨ Follows w info d fs1 s)) := by
  induction hst with
  | refl => exact .inl ⟨fresh_init _ _, rfl, rfl, tried_refl _ _ _⟩
  | @tail s t hs hst ih =>
    rcases ih with ⟨hf, hh, hu, hb⟩ | ⟨info', n, fs1, hk, hca, hw⟩
    · have key : t.torrent.infoHash = infoHash ∧ t.writerUp = true ∧ t.written = [] ∧ Tried w.cwd infoHash fs t.fs ∧
          (t.torrent.info ≠ none → Prepared w.cwd infoHash fs t.fs) := by
        cases hst with
        | announce => exact ⟨hh, hu, hf.written, hb, fun h => absurd hf.info h⟩
        | take _ _ hq => rw [hf.queue] at hq; cases hq
        | finishOk pre post r hq => rw [hf.busy] at hq; simp at hq
        | finishErr pre post r hq => rw [hf.busy] at hq; simp at hq
        | finishPanic pre post r hq => rw [hf.busy] at hq; simp at hq
        | write _ _ _ hr => rw [hf.ready] at hr; cases hr
        | success endpoint piece idx rest hd hm =>
          obtain ⟨p, e, -⟩ := hf.mail _ (by rw [hm]; exact List.mem_cons_self ..)
          cases e
        | failed endpoint idx rest hd hm =>
          obtain ⟨p, e, -⟩ := hf.mail _ (by rw [hm]; exact List.mem_cons_self ..)
          cases e
        | found p rest hd hm info' hi' => rw [hf.info] at hi'; cases hi'
        | collect p rest hd hm hi tcp f peerId room collected fs' hnh hc =>
          have hcol := collectInfo_tried (ε := Unit) w.build w.cwd s.fs (dialOf p.endpoint tcp) f peerId (infoHash := s.torrent.infoHash)
              (by rw [hh]; exact hlen) room
          rw [hc, hh] at hcol
          refine ⟨?_, hu, hf.written, tried_trans hb hcol.1, fun hne => ?_⟩
          · show (((s.torrent.addPeer p).onCollected w.build collected).torrent).infoHash = infoHash
            rw [onCollected_infoHash]
            exact hh
          · have hne' : (((s.torrent.addPeer p).onCollected w.build collected).torrent).info ≠ none := hne
            have hi' : (s.torrent.addPeer p).info = none := hi
            rw [Torrent.onCollected.eq_def] at hne'
            cases collected with
            | ok o =>
              cases o with
              | none => exact absurd hi' hne'
              | some i => exact prepared_of hb (hcol.2 i rfl)
            | err _ => exact absurd hi' hne'
            | panic => exact absurd hi' hne'
            | hang => exact absurd hi' hne'
      rcases fresh_step hf hst with h' | ⟨info', n, hk⟩
      · exact .inl ⟨h', key.1, key.2.1, key.2.2.2.1⟩
      · refine .inr ⟨info', n, t.fs, hk, key.2.2.2.2 (by rw [hk.hasInfo]; simp), fun e => .inr ⟨?_, ?_, ?_⟩⟩
        · rw [key.2.2.1]; simp
        · rw [key.2.2.1]; rfl
        · rw [key.2.2.1, key.2.1]
          exact ⟨fun _ => rfl, fun _ => rfl⟩
    · refine .inr ⟨info', n, fs1, known_step hk hst, hca, fun e => ?_⟩
      subst e
      rcases hw rfl with hw | hw
      · exact .inl (forged_steps hw hst)
      · exact follows_step hk hd h64 hw hst

/-! ### C66 -/

/-- C66, exactly, for any paths and any disk: when all pieces have been handed to the writer and it has taken them or died, then, with `fs1` the disk at the moment the metadata were found, the writer has survived just if the
paths and `fs1` are receptive, and then the files are right just if files in one place agree and no longer file was there; or a collision has been exhibited. -/
theorem C66_exactly {w : World} {info : Info} {d infoHash : Bytes} {fs : FS} {s : Sys} (hlen : 2 < infoHash.length)
    (hd : Describes w.sha info d) (h64 : d.length < 2 ^ 64) (hst : Steps w (Sys.init infoHash fs) s) (hi : s.torrent.info = some info)
    (hall : ∀ i, i < pieceCount d.length info.pieceLength → i ∈ handed s) (hready : s.writerUp = true → s.ready = []) :
    (∃ r ∈ s.written, Collision w.sha r.piece (piece d info.pieceLength r.idx)) ∨
    ∃ fs1, Prepared w.cwd infoHash fs fs1 ∧
      (s.writerUp = true ↔ Receptive w.cwd fs1 (listedFiles info) info.pieceLength) ∧
      (Receptive w.cwd fs1 (listedFiles info) info.pieceLength →
        (FilesRight s.fs [] (placedFiles w.cwd (listedFiles info)) d ↔
          Agreeing w.cwd (listedFiles info) d ∧ SameLength w.cwd (listedFiles info) ∧ NoneLonger fs1 [] (placedFiles w.cwd (listedFiles info)))) := by
  rcases follows_reachable hlen hd h64 hst with ⟨h, -⟩ | ⟨info', n, fs1, hk, hca, hw⟩
  · rw [h.info] at hi; cases hi
  · have : info' = info := by rw [hk.hasInfo] at hi; exact Option.some.inj hi
    rcases hw this with ⟨r, hr, -, hc⟩ | hw
    · exact .inl ⟨r, hr, hc⟩
    subst this
    refine .inr ⟨fs1, hca, ?_⟩
    have ho : ∀ i ∈ s.written.map Ready.idx, i < pieceCount d.length info'.pieceLength := by
      intro i hi
      obtain ⟨r, hr, rfl⟩ := List.mem_map.mp hi
      rw [← known_count hk hd h64]
      exact idx_lt hk (List.mem_append_left _ hr)
    have cov : s.writerUp = true → ∀ i, i < pieceCount d.length info'.pieceLength → i ∈ s.written.map Ready.idx := by
      intro hup i hi
      have := hall i hi
      rwa [handed, hready hup, List.append_nil] at this
    have hup : s.writerUp = true ↔ Receptive w.cwd fs1 (listedFiles info') info'.pieceLength := by
      constructor
      · intro hu
        exact (C55_whole w.build w.cwd fs1 _ d _ _ hd.total h64 hd.pieceLength ho (cov hu)).1.mp (hw.up.mpr hu)
      · intro hr
        obtain ⟨fs2, e, -⟩ := anywhere_pieces (ε := Unit) (m := w.build) hd.total h64 hd.pieceLength _ hr ho
        exact hw.up.mp (by rw [e])
    refine ⟨hup, fun hr => ?_⟩
    obtain ⟨fs2, e, hiff⟩ := C51_exactly (ε := Unit) w.build w.cwd fs1 _ d _ _ hd.total h64 hd.pieceLength ho (cov (hup.mpr hr)) hr
    have := hw.disk
    rw [e] at this
    rw [← this]
    exact hiff

/-- When the metadata have been found, the disk is receptive just if it was before, no file is in the place of `downloads` and the cache is not in the place of a directory that has to be there
for one. -/
theorem prepared_receptive {cwd : Loc} {infoHash : Bytes} {fs fs1 : FS} {files : List File} {pl : Nat} (h : Prepared cwd infoHash fs fs1) :
    Receptive cwd fs1 files pl ↔ Receptive cwd fs files pl ∧
      ∀ k f, Touched files pl k f → place cwd f.path ≠ cwd ++ [b!"downloads"] ∧ ¬ Way cwd f.path (cacheLoc cwd infoHash) := by
  obtain ⟨c, hc⟩ := h.file
  constructor
  · intro hr
    have hoff : ∀ k f, Touched files pl k f → place cwd f.path ≠ cwd ++ [b!"downloads"] ∧ ¬ Way cwd f.path (cacheLoc cwd infoHash) :=
      fun k f ht => ⟨fun e => hr.noDir k f ht (by rw [e, h.dir]), fun hwy => hr.noFile k f ht _ c hwy hc⟩
    refine ⟨⟨hr.servable, hr.ways, fun k f ht l x hl hx => ?_, fun k f ht hx => ?_⟩, hoff⟩
    · by_cases h1 : l = cwd ++ [b!"downloads"]
      · rw [h1] at hx; exact h.noFile x hx
      · by_cases h2 : l = cacheLoc cwd infoHash
        · exact (hoff k f ht).2 (h2 ▸ hl)
        · exact hr.noFile k f ht l x hl (by rw [h.elsewhere l h1 h2]; exact hx)
    · by_cases h2 : place cwd f.path = cacheLoc cwd infoHash
      · rw [h2] at hx; exact h.noDir hx
      · exact hr.noDir k f ht (by rw [h.elsewhere _ (hoff k f ht).1 h2]; exact hx)
  · rintro ⟨hr, hoff⟩
    refine ⟨hr.servable, hr.ways, fun k f ht l x hl hx => ?_, fun k f ht hx => ?_⟩
    · by_cases h1 : l = cwd ++ [b!"downloads"]
      · rw [h1, h.dir] at hx; cases hx
      · have h2 : l ≠ cacheLoc cwd infoHash := fun e => (hoff k f ht).2 (e ▸ hl)
        exact hr.noFile k f ht l x hl (by rw [← h.elsewhere l h1 h2]; exact hx)
    · by_cases h2 : place cwd f.path = cacheLoc cwd infoHash
      · rw [h2, hc] at hx; cases hx
      · exact hr.noDir k f ht (by rw [← h.elsewhere _ (hoff k f ht).1 h2]; exact hx)

/-- C66, exactly, by the disk at the start: the writer survives just if the paths and the disk are receptive, no file is in the place of `downloads`, and the cache is not in the place of a
directory that has to be there for one; and then the files are right just if files in one place agree and no longer file was there at the start; or a collision has been exhibited. Missing: files in the place of the cache, for
which see `C66_exactly`. -/
theorem C66_from_start_partial {w : World} {info : Info} {d infoHash : Bytes} {fs : FS} {s : Sys} (hlen : 2 < infoHash.length)
    (hd : Describes w.sha info d) (h64 : d.length < 2 ^ 64) (hst : Steps w (Sys.init infoHash fs) s) (hi : s.torrent.info = some info)
    (hall : ∀ i, i < pieceCount d.length info.pieceLength → i ∈ handed s) (hready : s.writerUp = true → s.ready = [])
    (hcache : ∀ f ∈ listedFiles info, place w.cwd f.path ≠ cacheLoc w.cwd infoHash) :
    (∃ r ∈ s.written, Collision w.sha r.piece (piece d info.pieceLength r.idx)) ∨
    ((s.writerUp = true ↔ Receptive w.cwd fs (listedFiles info) info.pieceLength ∧ ∀ k f, Touched (listedFiles info) info.pieceLength k f →
        place w.cwd f.path ≠ w.cwd ++ [b!"downloads"] ∧ ¬ Way w.cwd f.path (cacheLoc w.cwd infoHash)) ∧
      (s.writerUp = true →
        (FilesRight s.fs [] (placedFiles w.cwd (listedFiles info)) d ↔
          Agreeing w.cwd (listedFiles info) d ∧ SameLength w.cwd (listedFiles info) ∧ NoneLonger fs [] (placedFiles w.cwd (listedFiles info))))) := by
  rcases C66_exactly hlen hd h64 hst hi hall hready with h | ⟨fs1, hca, h1, h2⟩
  · exact .inl h
  · refine .inr ⟨h1.trans (prepared_receptive hca), fun hu => ?_⟩
    have hr := h1.mp hu
    rw [h2 hr]
    have hoff := ((prepared_receptive hca).mp hr).2
    have hN : NoneLonger fs1 [] (placedFiles w.cwd (listedFiles info)) ↔ NoneLonger fs [] (placedFiles w.cwd (listedFiles info)) := by
      have same : ∀ g ∈ placedFiles w.cwd (listedFiles info), 0 < g.length → readFile fs1 ([] ++ g.path) = readFile fs ([] ++ g.path) := by
        intro g hg hpos
        obtain ⟨k, hk⟩ := List.getElem?_of_mem hg
        obtain ⟨f, hf, rfl⟩ := placed_get' hk
        simp only [readFile, List.nil_append]
        rw [hca.elsewhere _ (hoff k f ⟨hf, .inl hpos⟩).1 (hcache f (List.mem_of_getElem? hf))]
      exact ⟨fun h g hg hpos c hc => h g hg hpos c (by rw [same g hg hpos]; exact hc), fun h g hg hpos c hc => h g hg hpos c (by rw [← same g hg hpos]; exact hc)⟩
    rw [hN]

/-! ### Runs that end -/

theorem drain_anyway {w : World} : ∀ (k : Nat) (s : Sys), s.ready.length = k →
    ∃ t, Steps w s t ∧ t.torrent = s.torrent ∧ flight t = flight s ∧ t.lost = s.lost ∧ (t.writerUp = true → t.ready = []) ∧ (∀ G, AllGood G s → AllGood G t) ∧
      peersReported t = peersReported s := by
  intro k
  induction k with
  | zero =>
    intro s hk
    exact ⟨s, .refl s, rfl, rfl, rfl, fun _ => List.length_eq_zero_iff.mp hk, fun _ hg => hg, rfl⟩
  | succ k ih =>
    intro s hk
    by_cases hu : s.writerUp = true
    · cases hr : s.ready with
      | nil => rw [hr] at hk; cases hk
      | cons r ready =>
        have st := Step.write (w := w) s r ready hu hr _ _ rfl
        generalize hs' : ({ s with ready, written := s.written ++ [r], fs := _, writerUp := _ } : Sys) = s' at st
        have h1 : s'.torrent = s.torrent := by rw [← hs']
        have h2 : flight s' = flight s := by rw [← hs']; rfl
        have h3 : s'.lost = s.lost := by rw [← hs']
        have h4 : s'.ready = ready := by rw [← hs']
        have h6 : peersReported s' = peersReported s := by rw [← hs']; rfl
        have h5 : ∀ G, AllGood G s → AllGood G s' := by
          intro G hg
          rw [← hs']
          refine allGood_same hg (fun _ _ _ hx => hx) ?_
          intro x hx
          rw [hr]
          simpa using hx
        obtain ⟨t, e1, e2, e3, e4, e5, e6, e7⟩ := ih s' (by rw [h4]; rw [hr] at hk; simpa using hk)
        exact ⟨t, Steps.trans (Steps.single st) e1, by rw [e2, h1], by rw [e3, h2], by rw [e4, h3], e5, fun G hg => e6 G (h5 G hg), by rw [e7, h6]⟩
    · exact ⟨s, .refl s, rfl, rfl, rfl, fun h => absurd h hu, fun _ hg => hg, rfl⟩

/-- From every state of a started torrent in which no worker died there is a way to a state in which all pieces have been handed over and the writer is idle or dead. -/
theorem can_end_anywhere {w : World} {info : Info} {d infoHash : Bytes} {fs : FS} {s : Sys} (hsha : ∀ b, (w.sha b).length = 20)
    (hd : Describes w.sha info d) (hfit : Fits info d)
    (hst : Steps w (Sys.init infoHash fs) s) (hi : s.torrent.info = some info) (hs : s.torrent.initiated = true) (hl : s.lost = []) :
    ∃ t, Steps w s t ∧ t.torrent.info = some info ∧ flight t = [] ∧ t.lost = [] ∧ (∀ i, i < pieceCount d.length info.pieceLength → i ∈ handed t) ∧
      (t.writerUp = true → t.ready = []) ∧ (AllGood (fun i pc => pc = piece d info.pieceLength i) s → AllGood (fun i pc => pc = piece d info.pieceLength i) t) ∧
      peersReported t = peersReported s := by
  obtain ⟨n, h⟩ := among_known (among_of hst) hi
  have hn := known_count h hd hfit.length
  obtain ⟨t, h1, h2, h3, h4, hrep, -, hgood⟩ := work_steps (w := w) (info := info) (n := n) (fun i pc => pc = piece d info.pieceLength i)
    (by rw [hn]; exact serve_of hsha hd hfit) _ s rfl h hs (by rw [hl]; decide)
  have ht := known_steps h h1
  obtain ⟨u, e1, e2, e3, e4, e5, e6, e7⟩ := drain_anyway (w := w) _ t rfl
  have hinfo : u.torrent.info = some info := by rw [e2]; exact ht.hasInfo
  have hsu := (hst.trans h1).trans e1
  have hall : ∀ i, i < pieceCount d.length info.pieceLength → i ∈ handed u := by
    intro i hic
    have hc : contentLength info = d.length := by rw [contentLength_listed, hd.total]
    have := C43_all_handed_partial (among_of hsu) hinfo (.inr (by rw [hc]; exact hfit.length)) (by rw [e2]; exact h4) (by rw [e4, h3, hl]) (by rw [e3]; exact h2)
    refine this.mem_iff.mpr (List.mem_range.mpr ?_)
    rw [count, hc]
    exact hic
  exact ⟨u, h1.trans e1, hinfo, by rw [e3]; exact h2, by rw [e4, h3, hl], hall, e5, fun hg => e6 _ (hgood hg), by rw [e7, hrep]⟩

/-- C66, for any paths and any disk: from every state of a started torrent in which no worker died, whatever peers did before, there is a way to a state in which all pieces have been handed over and the
writer is idle or dead, and what the disk is like then is as in `C66_exactly`. Missing: dead workers. -/
theorem C66_can_end_partial {w : World} {info : Info} {d infoHash : Bytes} {fs : FS} {s : Sys} (hsha : ∀ b, (w.sha b).length = 20)
    (hlen : 2 < infoHash.length) (hd : Describes w.sha info d) (hfit : Fits info d)
    (hst : Steps w (Sys.init infoHash fs) s) (hi : s.torrent.info = some info) (hs : s.torrent.initiated = true) (hl : s.lost = []) :
    ∃ t, Steps w s t ∧ t.torrent.info = some info ∧ flight t = [] ∧ t.lost = [] ∧ (∀ i, i < pieceCount d.length info.pieceLength → i ∈ handed t) ∧
      (t.writerUp = true → t.ready = []) ∧ (AllGood (fun i pc => pc = piece d info.pieceLength i) s → AllGood (fun i pc => pc = piece d info.pieceLength i) t) ∧
      ((∃ r ∈ t.written, Collision w.sha r.piece (piece d info.pieceLength r.idx)) ∨
      ∃ fs1, Prepared w.cwd infoHash fs fs1 ∧
        (t.writerUp = true ↔ Receptive w.cwd fs1 (listedFiles info) info.pieceLength) ∧
        (Receptive w.cwd fs1 (listedFiles info) info.pieceLength →
          (FilesRight t.fs [] (placedFiles w.cwd (listedFiles info)) d ↔
            Agreeing w.cwd (listedFiles info) d ∧ SameLength w.cwd (listedFiles info) ∧ NoneLonger fs1 [] (placedFiles w.cwd (listedFiles info))))) := by
  obtain ⟨t, h1, h2, h3, h4, h5, h6, h7, -⟩ := can_end_anywhere hsha hd hfit hst hi hs hl
  exact ⟨t, h1, h2, h3, h4, h5, h6, h7, C66_exactly hlen hd hfit.length (hst.trans h1) h2 h5 h6⟩

/-! ### The hypotheses can be met -/

/-- Metadata with a path that goes up, an absolute one, and two paths for one place. -/
def oddPaths (sha : Bytes → Bytes) : Info := ⟨some [⟨[b!"x/..", b!"a"], 1⟩, ⟨[b!"", b!"z"], 1⟩, ⟨[b!"a"], 1⟩], none, b!"t", 3, sha [1, 2, 1]⟩

theorem oddPaths_describes {sha : Bytes → Bytes} (hsha : ∀ b, (sha b).length = 20) : Describes sha (oddPaths sha) [1, 2, 1] where
  total := rfl
  pieceLength := by show 0 < 3; decide
  hashes := by
    intro k hk
    have : k < pieceCount 3 3 := hk
    rw [show pieceCount 3 3 = 1 by decide] at this
    have : k = 0 := by omega
    subst this
    show ((sha [1, 2, 1]).drop 0).take 20 = sha [1, 2, 1]
    rw [List.drop_zero, List.take_of_length_le (by rw [hsha]; omega)]

theorem oddPaths_typed (sha : Bytes → Bytes) : Typed (oddPaths sha) :=
  ⟨by show validUtf8 b!"t" = true; decide +kernel, by show 3 < 2 ^ 64; decide, (by intro n h; cases h), by
    intro fs h
    cases h
    decide +kernel⟩

theorem oddPaths_receptive (sha : Bytes → Bytes) :
    Receptive [b!"h"] (cachedFs [b!"h"] (List.replicate 20 7) (oddPaths sha)) (listedFiles (oddPaths sha)) 3 :=
  (C55_whole (ε := Unit) .debug [b!"h"] _ _ [1, 2, 1] 3 [0] rfl (by decide) (by decide) (by decide) (by
    intro i hi
    have : i < 1 := hi
    simp; omega)).1.mp (by rfl)

/-- Non-vacuity of the theorems above: in a world (with 20-byte hashes) there is a complete run of a torrent with such paths, after which its files are in their places. -/
example (w : World) (hsha : ∀ b, (w.sha b).length = 20) (hcwd : w.cwd = [b!"h"]) : ∃ s, Reachable w s ∧
    readFile s.fs [b!"h", b!"a"] = some [1] ∧ readFile s.fs [b!"z"] = some [2] := by
  have hd := oddPaths_describes hsha
  have hn : (pieceTotal w.build (oddPaths w.sha) : Res Unit Nat) = .ok 1 := by
    rw [pieceTotal_of hd (by decide) (by decide)]
    show Res.ok (pieceCount 3 3) = _
    rw [show pieceCount 3 3 = 1 by decide]
  have hc := cachedFs_cached w.cwd (List.replicate 20 7) (oddPaths w.sha)
  have hst := run_started_on (by decide) (oddPaths_typed w.sha) hc hn (by decide)
  obtain ⟨t, h1, h2, h3, h4, h5, h6, hg, h7⟩ := C66_can_end_partial hsha (by decide) hd ⟨by decide, by show pieceCount 3 3 ≤ 2 ^ 32; decide, by show 3 * pieceCount 3 3 < 2 ^ 64; decide⟩ hst rfl rfl rfl
  have hg := hg ⟨fun e p i hx => (by cases hx), fun r hr => (by cases hr)⟩
  refine ⟨t, ⟨_, _, hst.trans h1⟩, ?_⟩
  have cases3 : ∀ (k : Nat) (f : File), (listedFiles (oddPaths w.sha))[k]? = some f →
      k = 0 ∧ f = ⟨[b!"x/..", b!"a"], 1⟩ ∨ k = 1 ∧ f = ⟨[b!"", b!"z"], 1⟩ ∨ k = 2 ∧ f = ⟨[b!"a"], 1⟩ := by
    intro k f hf
    rcases k with _ | _ | _ | k
    · exact .inl ⟨rfl, (Option.some.inj hf).symm⟩
    · exact .inr (.inl ⟨rfl, (Option.some.inj hf).symm⟩)
    · exact .inr (.inr ⟨rfl, (Option.some.inj hf).symm⟩)
    · cases hf
  have p0 : place w.cwd [b!"x/..", b!"a"] = [b!"h", b!"a"] := by rw [hcwd]; decide +kernel
  have p1 : place w.cwd [b!"", b!"z"] = [b!"z"] := by rw [hcwd]; decide +kernel
  have p2 : place w.cwd [b!"a"] = [b!"h", b!"a"] := by rw [hcwd]; decide +kernel
  have hne : ∀ (k : Nat) (f : File), (listedFiles (oddPaths w.sha))[k]? = some f → place w.cwd f.path ≠ w.cwd ++ [b!"downloads"] ∧ place w.cwd f.path ≠ cacheLoc w.cwd (List.replicate 20 7) := by
    intro k f hf
    rcases cases3 k f hf with ⟨-, rfl⟩ | ⟨-, rfl⟩ | ⟨-, rfl⟩
    · rw [p0, hcwd]; exact ⟨by decide, by decide +kernel⟩
    · rw [p1, hcwd]; exact ⟨by decide, by decide +kernel⟩
    · rw [p2, hcwd]; exact ⟨by decide, by decide +kernel⟩
  rcases h7 with ⟨r, hr, hne, -⟩ | ⟨fs1, hp, -, h7⟩
  · exact absurd (hg.2 r (List.mem_append_left _ hr)) hne
  have hrec : Receptive w.cwd (cachedFs w.cwd (List.replicate 20 7) (oddPaths w.sha)) (listedFiles (oddPaths w.sha)) 3 := by
    rw [hcwd]; exact oddPaths_receptive w.sha
  have hcl : cachedFs w.cwd (List.replicate 20 7) (oddPaths w.sha) (cacheLoc w.cwd (List.replicate 20 7)) = some (.file (oddPaths w.sha).json) := by
    rw [cachedFs, if_neg (Ne.symm (cacheLoc_ne_dir _ _)), if_pos rfl]
  have hrec1 := (prepared_receptive hp).mpr ⟨hrec, fun k f ht => ⟨(hne k f ht.1).1, fun hw => hrec.noFile k f ht _ _ hw hcl⟩⟩
  have hright := (h7 hrec1).mpr ⟨?_, ?_, ?_⟩
  · exact ⟨by have := hright 0 _ (placed_get (f := ⟨[b!"x/..", b!"a"], 1⟩) rfl) (by show 0 < 1; decide); rw [p0] at this; exact this,
      by have := hright 1 _ (placed_get (f := ⟨[b!"", b!"z"], 1⟩) rfl) (by show 0 < 1; decide); rw [p1] at this; exact this⟩
  · intro i j f g hi hj he x hx hy
    have hx0 : x = 0 := by rcases cases3 i f hi with ⟨-, rfl⟩ | ⟨-, rfl⟩ | ⟨-, rfl⟩ <;> exact Nat.lt_one_iff.mp hx
    subst hx0
    rcases cases3 i f hi with ⟨rfl, rfl⟩ | ⟨rfl, rfl⟩ | ⟨rfl, rfl⟩ <;> rcases cases3 j g hj with ⟨rfl, rfl⟩ | ⟨rfl, rfl⟩ | ⟨rfl, rfl⟩ <;>
      first | rfl | (rw [p0, p1] at he; cases he) | (rw [p1, p0] at he; cases he) | (rw [p2, p1] at he; cases he) | (rw [p1, p2] at he; cases he)
  · intro f hf g hg _ _ _
    obtain ⟨i, hi⟩ := List.getElem?_of_mem hf
    obtain ⟨j, hj⟩ := List.getElem?_of_mem hg
    rcases cases3 i f hi with ⟨-, rfl⟩ | ⟨-, rfl⟩ | ⟨-, rfl⟩ <;> rcases cases3 j g hj with ⟨-, rfl⟩ | ⟨-, rfl⟩ | ⟨-, rfl⟩ <;> rfl
  · intro g hg _ c hcc
    obtain ⟨k, hk⟩ := List.getElem?_of_mem hg
    obtain ⟨f, hf, rfl⟩ := placed_get' hk
    simp only [readFile, List.nil_append] at hcc
    rw [hp.elsewhere _ (hne k f hf).1 (hne k f hf).2, cachedFs, if_neg (hne k f hf).1, if_neg (hne k f hf).2] at hcc
    cases hcc

end RustBit
