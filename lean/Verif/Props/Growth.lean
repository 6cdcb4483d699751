/-
C126: how much room the files of torrents take on the disk.
-/
import Verif.Spec.Growth
import Verif.Props.AnywhereProcess

namespace RustBit
open Spec

/-! ### One piece -/

theorem res_bind_ok {ε α β : Type} {x : Res ε α} {k : α → Res ε β} {b : β} (h : (x >>= k) = .ok b) : ∃ a, x = .ok a ∧ k a = .ok b := by
  cases x with
  | ok a => exact ⟨a, rfl, h⟩
  | err e => simp at h
  | panic => simp at h
  | hang => simp at h

/-- The end of a file and, from it, its beginning, as computed. -/
theorem boundary {ε : Type} {m : Build} {prev n right b : Nat} (hp : prev < 2 ^ 64) (h1 : (uadd m prev n : Res ε Nat) = .ok right)
    (h2 : (usub m right n : Res ε Nat) = .ok b) : right < 2 ^ 64 ∧ b ≤ prev ∧ right ≤ b + n := by
  unfold uadd at h1
  unfold usub at h2
  split at h1
  · cases h1
    split at h2
    · cases h2
      omega
    · omega
  · cases m with
    | debug => cases h1
    | release =>
      simp only [Res.ok.injEq] at h1
      split at h2
      · cases h2
        omega
      · simp only [Res.ok.injEq] at h2
        omega

theorem usub_le {ε : Type} {m : Build} {a b c : Nat} (h : b ≤ a) (e : (usub m a b : Res ε Nat) = .ok c) : c = a - b := by
  rw [usub_ok h] at e
  cases e
  rfl

/-- The loop over the files, from any file on: every part is within its file. -/
theorem loop_within {ε : Type} (m : Build) (piece : Bytes) {off : Nat} (hoff : ∀ e, (uadd m off piece.length : Res ε Nat) = .ok e → e = off + piece.length) :
    ∀ (files : List File) (p : FileParser) (acc ws : List FileWriter), p.pieceLength = piece.length → p.offset = off → off ≤ p.startFileIndex →
    p.rightFileBoundary ≤ p.startFileIndex → p.rightFileBoundary < 2 ^ 64 →
    (fileWritersLoop m piece files p acc : Res ε _) = .ok ws →
    ∀ x ∈ ws, x ∈ acc ∨ ∃ f ∈ files, f.path = x.path ∧ x.start + x.piece.length ≤ f.length := by
  intro files
  induction files with
  | nil =>
    intro p acc ws _ _ _ _ _ e x hx
    simp only [fileWritersLoop, Res.ok.injEq] at e
    exact .inl (by rw [e]; exact hx)
  | cons f files ih =>
    intro p acc ws hpl ho hs hr h64 e x hx
    rw [fileWritersLoop] at e
    obtain ⟨p1, e1, e⟩ := res_bind_ok e
    obtain ⟨right, r1, r2⟩ := res_bind_ok e1
    cases r2
    split at e
    · rename_i hin
      have hin : p.offset < right := by simpa [FileParser.isPieceInFile] using hin
      obtain ⟨p2, e2, e⟩ := res_bind_ok e
      obtain ⟨stop, s1, s2⟩ := res_bind_ok e2
      have hstop : stop = off + piece.length := hoff stop (by rw [← ho, ← hpl]; exact s1)
      cases s2
      obtain ⟨a, ea, e⟩ := res_bind_ok e
      obtain ⟨b, b1, b2⟩ := res_bind_ok ea
      obtain ⟨c, ec, e⟩ := res_bind_ok e
      obtain ⟨i, ei, e⟩ := res_bind_ok e
      obtain ⟨j, ej, e⟩ := res_bind_ok e
      obtain ⟨part, ep, e⟩ := res_bind_ok e
      obtain ⟨more, em, e⟩ := res_bind_ok e
      obtain ⟨g1, g2, g3⟩ := boundary h64 r1 b1
      have ha := usub_le (by simp only []; omega) b2
      have hi := usub_le (by simp only []; omega) ei
      have hj := usub_le (by simp only []; omega) ej
      simp only [] at ha hi hj
      have hpart : i ≤ j ∧ part.length = j - i := by
        unfold slice at ep
        split at ep
        · rename_i h
          cases ep
          exact ⟨h.1, by simp only [List.length_drop, List.length_take]; omega⟩
        · cases ep
      have hfit : a + part.length ≤ f.length := by omega
      have here : ∀ x ∈ acc ++ [(⟨f.path, a, c, part⟩ : FileWriter)], x ∈ acc ∨ ∃ g ∈ f :: files, g.path = x.path ∧ x.start + x.piece.length ≤ g.length := by
        intro x hx
        rcases List.mem_append.mp hx with hx | hx
        · exact .inl hx
        · rw [List.mem_singleton.mp hx]
          exact .inr ⟨f, by simp, rfl, hfit⟩
      split at e
      · rename_i hmore
        obtain ⟨z, z1, z2⟩ := res_bind_ok em
        have hz : z = off + piece.length := hoff z (by rw [← ho, ← hpl]; exact z1)
        simp only [Res.ok.injEq] at z2
        rw [hmore, decide_eq_true_iff] at z2
        have z2 : off + piece.length > right := by rw [← hz]; exact z2
        rcases ih (FileParser.updateStartFileIndex { p with rightFileBoundary := right, endFileIndex := min right stop }) _ _ hpl ho
          (by show off ≤ min right stop; omega) (by show right ≤ min right stop; omega) g1 e x hx with h | ⟨g, hg, h⟩
        · exact here x h
        · exact .inr ⟨g, List.mem_cons_of_mem _ hg, h⟩
      · simp only [Res.ok.injEq] at e
        exact here x (by rw [e]; exact hx)
    · rename_i hin
      have hin : ¬ p.offset < right := by simpa [FileParser.isPieceInFile] using hin
      have g1 : right < 2 ^ 64 := by
        unfold uadd at r1
        split at r1
        · cases r1; assumption
        · cases m with
          | debug => cases r1
          | release => cases r1; exact Nat.mod_lt _ (by decide)
      rcases ih { p with rightFileBoundary := right } _ _ hpl ho hs (by show right ≤ p.startFileIndex; omega) g1 e x hx with h | ⟨g, hg, h⟩
      · exact .inl h
      · exact .inr ⟨g, List.mem_cons_of_mem _ hg, h⟩

/-- Whatever is listed and whatever the piece is: no part of it reaches beyond the listed length of its file. In a release build, as long as the position of the end of the piece is a
number of 64 bits. -/
theorem writers_within {ε : Type} {m : Build} {files : List File} {piece : Bytes} {idx pl : Nat} {ws : List FileWriter}
    (hc : m = .debug ∨ idx * pl + piece.length < 2 ^ 64) (h : (getFileWriters m files piece idx pl : Res ε _) = .ok ws) :
    ∀ x ∈ ws, ∃ f ∈ files, f.path = x.path ∧ x.start + x.piece.length ≤ f.length := by
  unfold getFileWriters at h
  obtain ⟨p, h1, h2⟩ := res_bind_ok h
  obtain ⟨off, o1, o2⟩ := res_bind_ok h1
  cases o2
  have hoff : ∀ e, (uadd m off piece.length : Res ε Nat) = .ok e → e = off + piece.length := by
    intro e he
    unfold uadd at he
    split at he
    · cases he; rfl
    · rename_i hlt
      cases m with
      | debug => cases he
      | release =>
        rcases hc with hc | hc
        · cases hc
        · rw [umul_ok (by omega)] at o1
          cases o1
          exact absurd hc hlt
  intro x hx
  rcases loop_within m piece hoff files _ [] ws rfl rfl (Nat.le_refl _) (Nat.zero_le _) (Nat.two_pow_pos 64) h2 x hx with h | h
  · cases h
  · exact h

/-! ### The program -/

/-- On the way from one disk to another no file grows beyond what some metadata list. -/
def Enlarges (cwd : Loc) (infos : List Info) (fs fs' : FS) : Prop :=
  ∀ l, ¬ OwnPlace cwd l → sizeAt fs' l ≤ sizeAt fs l ∨ ListsAt cwd infos l (sizeAt fs' l)

theorem enlarges_refl (cwd : Loc) (infos : List Info) (fs : FS) : Enlarges cwd infos fs fs := fun _ _ => .inl (Nat.le_refl _)

theorem listsAt_mono {cwd l : Loc} {a b : List Info} {m n : Nat} (h : ListsAt cwd a l m) (hab : ∀ i ∈ a, i ∈ b) (hn : n ≤ m) : ListsAt cwd b l n := by
  obtain ⟨i, hi, f, hf, e, hl⟩ := h
  exact ⟨i, hab i hi, f, hf, e, Nat.le_trans hn hl⟩

theorem enlarges_trans {cwd : Loc} {i j : List Info} {a b c : FS} (h1 : Enlarges cwd i a b) (hij : ∀ x ∈ i, x ∈ j) (h2 : Enlarges cwd j b c) : Enlarges cwd j a c := by
  intro l hl
  rcases h2 l hl with h | h
  · rcases h1 l hl with h' | h'
    · exact .inl (Nat.le_trans h h')
    · exact .inr (listsAt_mono h' hij h)
  · exact .inr h

theorem size_quiet {fs fs' : FS} {l : Loc} (h1 : ∀ n, fs l = some n → fs' l = some n) (h2 : fs l = none → ∀ c, fs' l = some (.file c) → c = []) :
    sizeAt fs' l ≤ sizeAt fs l := by
  cases hc : fs l with
  | some n => rw [sizeAt, sizeAt, h1 n hc, hc]; exact Nat.le_refl _
  | none =>
    cases hc' : fs' l with
    | none => simp [sizeAt, hc']
    | some n =>
      cases n with
      | dir => simp [sizeAt, hc']
      | file c => rw [sizeAt, hc', h2 hc c hc']; simp

theorem enlarges_quiet {cwd : Loc} {infos : List Info} {fs fs' : FS} (h : Quiet fs fs') : Enlarges cwd infos fs fs' :=
  fun l _ => .inl (size_quiet (h l).1 (h l).2)

theorem enlarges_same {cwd : Loc} {infos : List Info} {fs fs' : FS} (h : ∀ l, ¬ OwnPlace cwd l → fs' l = fs l) : Enlarges cwd infos fs fs' :=
  fun l hl => .inl (by rw [sizeAt, sizeAt, h l hl]; exact Nat.le_refl _)

/-- A part within a file that is listed. -/
def PartFits (infos : List Info) (x : FileWriter) : Prop := ∃ info ∈ infos, ∃ f ∈ listedFiles info, f.path = x.path ∧ x.start + x.piece.length ≤ f.length

theorem enlarges_part {cwd : Loc} {infos : List Info} {fs : FS} {x : FileWriter} (h : PartFits infos x) :
    Enlarges cwd infos fs (x.writeToFilesystem cwd fs : Res Unit Unit × FS).2 := by
  rcases write_one (cwd := cwd) (fs := fs) x (r := (x.writeToFilesystem cwd fs : Res Unit Unit × FS).1) rfl with h' | ⟨-, h1, h2⟩
  · exact enlarges_quiet h'
  · intro l hl
    by_cases e : l = place cwd x.path
    · subst e
      obtain ⟨info, hi, f, hf, ep, hlen⟩ := h
      have hold : ((readFile fs (place cwd x.path)).getD []).length = sizeAt fs (place cwd x.path) := by
        rw [readFile, sizeAt]
        cases fs (place cwd x.path) with
        | none => rfl
        | some n => cases n <;> rfl
      have hnew : sizeAt (x.writeToFilesystem cwd fs : Res Unit Unit × FS).2 (place cwd x.path) =
          (pwrite ((readFile fs (place cwd x.path)).getD []) x.start x.piece).length := by
        unfold sizeAt
        exact congrArg (fun o => match o with | some (.file c) => c.length | _ => 0) h1
      rw [hnew, ← hold]
      by_cases hb : x.piece = []
      · left
        simp [pwrite, hb]
      · rw [pwrite_length _ _ _ hb]
        rcases Nat.le_total (x.start + x.piece.length) ((readFile fs (place cwd x.path)).getD []).length with h' | h'
        · exact .inl (by omega)
        · exact .inr ⟨info, hi, f, hf, by rw [ep], by omega⟩
    · exact .inl (size_quiet (h2 l e).1 (h2 l e).2)

theorem enlarges_torn {cwd : Loc} {infos : List Info} {fs fs' : FS} {x : FileWriter} (h : PartFits infos x) (ht : TornPart cwd fs x fs') :
    Enlarges cwd infos fs fs' := by
  cases ht with
  | dirs k hk => exact enlarges_quiet (quiet_dirs _ _ _)
  | data n =>
    obtain ⟨info, hi, f, hf, e, hl⟩ := h
    exact enlarges_part ⟨info, hi, f, hf, e, by simp only [List.length_take]; omega⟩

theorem enlarges_tornAll {cwd : Loc} {infos : List Info} {fs fs' : FS} {slots : List Slot} (ht : TornAll cwd fs slots fs') :
    (∀ s ∈ slots, ∀ ws, s.parts = some ws → ∀ x ∈ ws, PartFits infos x) → Enlarges cwd infos fs fs' := by
  induction ht with
  | nil => exact fun _ => enlarges_refl _ _ _
  | skip _ ih => exact fun h => ih fun s hs => h s (List.mem_cons_of_mem _ hs)
  | part hx h1 _ ih =>
    exact fun h => enlarges_trans (enlarges_torn (h _ (by simp) _ hx _ (by simp)) h1) (fun _ h => h) (ih fun s hs => h s (List.mem_cons_of_mem _ hs))

/-- The place where the metadata for a hash of 20 or 32 bytes are saved. -/
theorem cache_own {cwd : Loc} {hash : Bytes} (h : hash.length = 20 ∨ hash.length = 32) : OwnPlace cwd (cacheLoc cwd hash) :=
  .inr ⟨percentEncode hash, ((C62_normal hash _).mpr rfl).1, by rw [C62_decodes]; exact h, rfl⟩

/-- Steps other than the writer's. -/
theorem enlarges_act {w : World} {infos : List Info} {fs : FS} {s t : Sys} (hl : s.torrent.infoHash.length = 20 ∨ s.torrent.infoHash.length = 32) (hst : Step w { s with fs := fs } t)
    (hw : t.written = s.written) : Enlarges w.cwd infos fs t.fs := by
  cases hst with
  | collect p rest hd hm hi tcp f peerId room collected fs' hnh hc =>
    have := (collectInfo_tried (ε := Unit) w.build w.cwd fs (dialOf p.endpoint tcp) f peerId (infoHash := s.torrent.infoHash) (by omega) room).1
    rw [hc] at this
    intro l hl'
    by_cases hdl : l = w.cwd ++ [b!"downloads"]
    · left
      rw [hdl]
      rcases this.dir with e | ⟨e1, e2⟩
      · exact size_quiet (fun n hn => e.trans hn) (fun hn c hc' => by cases (e.trans hn).symm.trans hc')
      · exact size_quiet (fun n hn => (by rw [e1] at hn; cases hn)) (fun _ c hc' => by cases e2.symm.trans hc')
    · left
      show sizeAt fs' l ≤ _
      have e : fs' l = fs l := this.elsewhere l hdl (fun e => hl' (e ▸ cache_own hl))
      rw [sizeAt, sizeAt, e]
      exact Nat.le_refl _
  | write r ready hu hr res fs' hwr =>
    have := congrArg List.length hw
    simp at this
  | announce => exact enlarges_refl _ _ _
  | take => exact enlarges_refl _ _ _
  | finishOk => exact enlarges_refl _ _ _
  | finishErr => exact enlarges_refl _ _ _
  | finishPanic => exact enlarges_refl _ _ _
  | success => exact enlarges_refl _ _ _
  | failed => exact enlarges_refl _ _ _
  | found => exact enlarges_refl _ _ _

/-- What is known of a torrent: the parts its writer is about to write are within the files. -/
structure Modest (w : World) (taken : List (Info × Ready)) (s : Slot) : Prop where
  hash : s.sys.torrent.infoHash.length = 20 ∨ s.sys.torrent.infoHash.length = 32
  parts : ∀ ws, s.parts = some ws → ∀ x ∈ ws, PartFits (writtenOf taken) x

theorem partFits_mono {a b : List Info} {x : FileWriter} (h : PartFits a x) (hab : ∀ i ∈ a, i ∈ b) : PartFits b x := by
  obtain ⟨i, hi, h⟩ := h
  exact ⟨i, hab i hi, h⟩

theorem taken_step {w : World} {P P' : Proc} (hst : PStep w P P') : ∀ x ∈ P.taken, x ∈ P'.taken := by
  intro x hx
  cases hst with
  | begin => exact List.mem_append_left _ hx
  | beginCrash => exact List.mem_append_left _ hx
  | _ => exact hx

theorem writtenOf_mono {a b : List (Info × Ready)} (h : ∀ x ∈ a, x ∈ b) : ∀ i ∈ writtenOf a, i ∈ writtenOf b := by
  intro i hi
  obtain ⟨x, hx, e⟩ := List.mem_map.mp hi
  exact List.mem_map.mpr ⟨x, h x hx, e⟩

/-- A piece that is written begins within the content. -/
theorem idx_position {w : World} {info : Info} {n : Nat} {s : Sys} (h : Known w info n s) {r : Ready} (hr : r ∈ s.written ++ s.ready) :
    r.idx * info.pieceLength < total (listedFiles info) := by
  have h1 := idx_lt h hr
  obtain ⟨t, ht, e⟩ : ∃ t, t ≤ total (listedFiles info) ∧ wrappedCount info = (t + info.pieceLength - 1) / info.pieceLength := by
    rw [← contentLength_listed, contentLength, wrappedCount]
    cases info.files with
    | some fs => exact ⟨_, Nat.mod_le _ _, rfl⟩
    | none => exact ⟨_, Nat.le_refl _, rfl⟩
  rw [pieceTotal_wrapped h.total, e] at h1
  have h4 : 0 < info.pieceLength := by
    rcases Nat.eq_zero_or_pos info.pieceLength with e | e
    · rw [e] at h1; simp at h1
    · exact e
  have h3 := (Nat.le_div_iff_mul_le h4).mp (Nat.succ_le_of_lt h1)
  rw [Nat.succ_mul] at h3
  omega

theorem modest_step {w : World} {P P' : Proc} (hst : PStep w P P') (ha : ∀ s ∈ P.slots, SlotAmong w s) (h : ∀ s ∈ P.slots, Modest w P.taken s)
    (hc : w.build = .debug ∨ ∀ x ∈ P'.taken, Countable x) :
    (∀ s ∈ P'.slots, Modest w P'.taken s) ∧ Enlarges w.cwd (writtenOf P'.taken) P.fs P'.fs := by
  have htk := writtenOf_mono (taken_step hst)
  have old : ∀ s ∈ P.slots, Modest w P'.taken s := fun s hs => ⟨(h s hs).hash, fun ws e x hx => partFits_mono ((h s hs).parts ws e x hx) htk⟩
  have put : ∀ {k : Nat} {s' : Slot}, Modest w P'.taken s' → ∀ s ∈ P.slots.set k s', Modest w P'.taken s := by
    intro k s' hs' s hs
    rcases List.mem_or_eq_of_mem_set hs with hm | rfl
    · exact old s hm
    · exact hs'
  cases hst with
  | start hl fs he =>
    exact ⟨old, enlarges_same fun l hl' => createLog_only he l fun e => hl' (.inl (by rw [e, logPath_comps]))⟩
  | log n hl line =>
    exact ⟨old, enlarges_same fun l hl' => writeAt_other _ _ _ fun e => hl' (.inl (by rw [e, logPath_comps]))⟩
  | add hl body infoHash hadd =>
    refine ⟨fun s hs => ?_, enlarges_refl _ _ _⟩
    rcases List.mem_append.mp hs with hs | hs
    · exact old s hs
    · rw [List.mem_singleton.mp hs]
      exact ⟨addMagnet_length hadd, fun ws e => by cases e⟩
  | act k s t hk hst hw =>
    have hmem := List.mem_of_getElem? hk
    obtain ⟨-, a2, -⟩ := act_writer hst hw
    exact ⟨put ⟨by rw [a2]; exact (h s hmem).hash, (old s hmem).parts⟩, enlarges_act (h s hmem).hash hst hw⟩
  | begin k s r ready info ws hk hp hu hr hi hws =>
    have hmem := List.mem_of_getElem? hk
    refine ⟨put ⟨(h s hmem).hash, fun ws' e x hx => ?_⟩, enlarges_refl _ _ _⟩
    cases e
    obtain ⟨n, hkn⟩ := among_known (ha s hmem).1 hi
    have hmr : r ∈ s.sys.written ++ s.sys.ready := by rw [hr]; simp
    obtain ⟨-, hfiles, hpl⟩ := hkn.ready r hmr
    have hpos := idx_position hkn hmr
    have hin : (info, r) ∈ P.taken ++ [(info, r)] := by simp
    obtain ⟨f, hf, hfit⟩ := writers_within (hc.imp_right fun hc => by have h : total (listedFiles info) + r.piece.length ≤ 2 ^ 64 := hc _ hin; rw [hpl]; omega) hws x hx
    rw [listedFiles_spec hfiles] at hf
    exact ⟨info, List.mem_map.mpr ⟨_, hin, rfl⟩, f, hf, hfit⟩
  | beginCrash k s r ready info hk hp hu hr hi hws =>
    exact ⟨put ⟨(h s (List.mem_of_getElem? hk)).hash, fun ws e => by cases e⟩, enlarges_refl _ _ _⟩
  | part k s x xs fs hk hp hwr =>
    have hmem := List.mem_of_getElem? hk
    refine ⟨put ⟨(h s hmem).hash, fun ws e y hy => ?_⟩, ?_⟩
    · cases e
      exact (h s hmem).parts _ hp y (List.mem_cons_of_mem _ hy)
    · have := enlarges_part (cwd := w.cwd) (fs := P.fs) ((h s hmem).parts _ hp x (by simp))
      rw [hwr] at this
      exact this
  | partCrash k s x xs fs r ready hk hp hr hwr =>
    have hmem := List.mem_of_getElem? hk
    refine ⟨put ⟨(h s hmem).hash, fun ws e => by cases e⟩, ?_⟩
    have := enlarges_part (cwd := w.cwd) (fs := P.fs) ((h s hmem).parts _ hp x (by simp))
    rw [hwr] at this
    exact this
  | «end» k s r ready hk hp hr =>
    exact ⟨put ⟨(h s (List.mem_of_getElem? hk)).hash, fun ws e => by cases e⟩, enlarges_refl _ _ _⟩
  | stop order ho fs ht =>
    exact ⟨fun s hs => (by cases hs), enlarges_tornAll ht fun s hs => (h s (ho.mem_iff.mp hs)).parts⟩

theorem modest_steps {w : World} {Q : Info → Prop} {P P' : Proc} (hst : PSteps w Q P P') (ha : ∀ s ∈ P.slots, SlotAmong w s) (h : ∀ s ∈ P.slots, Modest w P.taken s)
    (hc : w.build = .debug ∨ ∀ x ∈ P'.taken, Countable x) :
    (∀ s ∈ P'.slots, Modest w P'.taken s) ∧ Enlarges w.cwd (writtenOf P'.taken) P.fs P'.fs := by
  induction hst with
  | refl => exact ⟨h, enlarges_refl _ _ _⟩
  | tail hs hst _ ih =>
    have hsub := taken_step hst
    obtain ⟨i1, i2⟩ := ih (hc.imp_right fun hc x hx => hc x (hsub x hx))
    obtain ⟨j1, j2⟩ := modest_step hst (slotAmong_steps ha hs) i1 hc
    exact ⟨j1, enlarges_trans i2 (writtenOf_mono hsub) j2⟩

/-- C126: at every moment of every run of the program, whatever the metadata say, whatever trackers, peers and users do, and however often the program has been stopped in the middle
of something: no file, apart from the log and the saved metadata, has become longer than it was at first unless it is a file of a torrent of which a piece has been written, and is no
longer than listed. Missing: in a release build, torrents so long that the end of a piece may be beyond what can be counted in 64
bits (`C126_refuted`). -/
theorem C126_file_partial {w : World} {Q : Info → Prop} {fs : FS} {n : Nat} {A : App} (h : ASteps w Q (App.init fs n) A)
    (hc : w.build = .debug ∨ ∀ x ∈ A.proc.taken, Countable x) (l : Loc) (hl : ¬ OwnPlace w.cwd l) :
    sizeAt A.proc.fs l ≤ sizeAt fs l ∨ ListsAt w.cwd (writtenOf A.proc.taken) l (sizeAt A.proc.fs l) :=
  (modest_steps (proc_steps (ainv_init fs n) h) (fun _ h => by cases h) (fun _ h => by cases h) hc).2 l hl

/-! ### All files together -/

/-- How many bytes the files at some locations have together. -/
theorem sum_at (g : File → Loc) : ∀ (files : List File) (ls : List Loc), ls.Nodup →
    (ls.map fun l => ((files.filter fun f => g f = l).map File.length).sum).sum ≤ total files := by
  intro files
  induction files with
  | nil => intro ls _; induction ls with
    | nil => simp
    | cons l ls ih => simp_all [total]
  | cons f files ih =>
    intro ls hn
    have : ∀ ls : List Loc, ls.Nodup → (ls.map fun l => (((f :: files).filter fun f => g f = l).map File.length).sum).sum ≤
        f.length + (ls.map fun l => ((files.filter fun f => g f = l).map File.length).sum).sum := by
      intro ls
      induction ls with
      | nil => simp
      | cons l ls ih2 =>
        intro hn
        obtain ⟨h1, h2⟩ := List.nodup_cons.mp hn
        simp only [List.map_cons, List.sum_cons]
        by_cases e : g f = l
        · have : (ls.map fun l => (((f :: files).filter fun f => g f = l).map File.length).sum) = ls.map fun l => ((files.filter fun f => g f = l).map File.length).sum := by
            refine List.map_congr_left fun l' hl' => ?_
            have : ¬ g f = l' := fun e' => h1 (by rw [← e, e']; exact hl')
            simp [this]
          rw [this]
          simp [e]
          omega
        · have := ih2 h2
          have e2 : (f :: files).filter (fun f => decide (g f = l)) = files.filter fun f => decide (g f = l) := by simp [e]
          rw [e2]
          omega
    have h1 := this ls hn
    have h2 := ih ls hn
    have h3 : total (f :: files) = f.length + total files := by simp [total]
    omega

theorem total_flat (T : List Info) : total (T.flatMap listedFiles) = (T.map fun i => total (listedFiles i)).sum := by
  induction T with
  | nil => rfl
  | cons i T ih => simp [total] at ih ⊢; omega

theorem member_sum {l : List Nat} {a : Nat} (h : a ∈ l) : a ≤ l.sum := by
  induction l with
  | nil => cases h
  | cons b l ih =>
    rw [List.sum_cons]
    rcases List.mem_cons.mp h with h | h
    · omega
    · have := ih h; omega

theorem sum_map_le {α : Type} {f g : α → Nat} : ∀ (l : List α), (∀ a ∈ l, f a ≤ g a) → (l.map f).sum ≤ (l.map g).sum
  | [], _ => by simp
  | a :: l, h => by
    have h1 := h a (by simp)
    have h2 := sum_map_le l fun b hb => h b (List.mem_cons_of_mem _ hb)
    simp only [List.map_cons, List.sum_cons]
    omega

theorem sum_map_add {α : Type} (f g : α → Nat) : ∀ (l : List α), (l.map fun a => f a + g a).sum = (l.map f).sum + (l.map g).sum
  | [] => rfl
  | a :: l => by
    have := sum_map_add f g l
    simp only [List.map_cons, List.sum_cons]
    omega

/-- C126, all files together: wherever one looks, apart from the log and the saved metadata, the files take no more room than at first and what the metadata list together, of the torrents
of which pieces have been written. Missing: as in `C126_file_partial`. -/
theorem C126_room_partial {w : World} {Q : Info → Prop} {fs : FS} {n : Nat} {A : App} (h : ASteps w Q (App.init fs n) A)
    (hc : w.build = .debug ∨ ∀ x ∈ A.proc.taken, Countable x) (T : List Info) (hT : ∀ x ∈ A.proc.taken, x.1 ∈ T)
    (ls : List Loc) (hn : ls.Nodup) (hl : ∀ l ∈ ls, ¬ OwnPlace w.cwd l) :
    (ls.map (sizeAt A.proc.fs)).sum ≤ (ls.map (sizeAt fs)).sum + (T.map fun i => total (listedFiles i)).sum := by
  have h1 : (ls.map (sizeAt A.proc.fs)).sum ≤
      (ls.map fun l => sizeAt fs l + (((T.flatMap listedFiles).filter fun f => place w.cwd f.path = l).map File.length).sum).sum := by
    refine sum_map_le ls fun l hmem => ?_
    rcases C126_file_partial h hc l (hl l hmem) with h' | ⟨info, hi, f, hf, e, hlen⟩
    · omega
    · obtain ⟨x, hx, ex⟩ := List.mem_map.mp hi
      have hm : f.length ∈ ((T.flatMap listedFiles).filter fun f => place w.cwd f.path = l).map File.length := by
        refine List.mem_map.mpr ⟨f, List.mem_filter.mpr ⟨List.mem_flatMap.mpr ⟨info, by rw [← ex]; exact hT x hx, hf⟩, by simpa using e⟩, rfl⟩
      have := member_sum hm
      omega
  rw [sum_map_add] at h1
  have h2 := sum_at (fun f => place w.cwd f.path) (T.flatMap listedFiles) ls hn
  rw [total_flat] at h2
  omega

/-- Without this condition it is false: three files of 2^63-2, 2^63-2 and 2 bytes, and a piece of 8 bytes at the beginning of the last one: in a release build the position of its end
wraps around, and all 8 bytes are written. (The hash of a piece is all that is compared: a piece may be longer than announced. Otherwise it is cut off at the end of the files.) -/
theorem C126_refuted : ∃ (files : List File) (piece : Bytes) (idx pl : Nat) (f : File) (fs' : FS), f ∈ files ∧ total files < 2 ^ 64 ∧ idx < pieceCount (total files) pl ∧
    (writePiece .release [] (fun _ => none) piece idx files pl : Res Unit Unit × FS) = (.ok (), fs') ∧ f.length = 2 ∧ sizeAt fs' (place [] f.path) = 8 :=
  ⟨[⟨[b!"a"], 2 ^ 63 - 2⟩, ⟨[b!"b"], 2 ^ 63 - 2⟩, ⟨[b!"c"], 2⟩], List.replicate 8 1, 2, 2 ^ 63 - 2, ⟨[b!"c"], 2⟩,
    (writePiece .release [] (fun _ => none) (List.replicate 8 1) 2 [⟨[b!"a"], 2 ^ 63 - 2⟩, ⟨[b!"b"], 2 ^ 63 - 2⟩, ⟨[b!"c"], 2⟩] (2 ^ 63 - 2) : Res Unit Unit × FS).2,
    by simp, by decide +kernel, by decide +kernel, Prod.ext (by decide +kernel) rfl, rfl, by decide +kernel⟩

/-- In a debug build the writer panics instead, and an over-long piece of a shorter torrent is cut off. -/
example : (getFileWriters .debug [⟨[b!"a"], 2 ^ 63 - 2⟩, ⟨[b!"b"], 2 ^ 63 - 2⟩, ⟨[b!"c"], 2⟩] (List.replicate 8 1) 2 (2 ^ 63 - 2) : Res Unit (List FileWriter)) = .panic ∧
    (getFileWriters .release [⟨[b!"a"], 3⟩, ⟨[b!"c"], 2⟩] (List.replicate 8 1) 1 3 : Res Unit (List FileWriter)) = .ok [⟨[b!"c"], 0, 2, [1, 1]⟩] :=
  ⟨by decide +kernel, by decide +kernel⟩

/-- Non-vacuity: in every world (with 20-byte hashes) whose working directory is not the root, a file can grow: to what is listed. -/
example (w : World) (hw : w.build = .debug) (hsha : ∀ b, (w.sha b).length = 20) (hcwd : w.cwd ≠ []) : ∃ A,
    ASteps w (fun _ => True) (App.init (fun _ => none) 1) A ∧ sizeAt A.proc.fs [b!"a"] = 3 ∧ ListsAt w.cwd (writtenOf A.proc.taken) [b!"a"] 3 := by
  obtain ⟨fs', h1, h2, h3⟩ := started w (fun _ => True) (fs := fun _ => none) 1 (by simp)
  have ne : ∀ x : Loc, x.length ≤ 1 → x ≠ w.cwd ++ [b!"test.log"] := by
    rintro x hx rfl
    have := List.length_pos_iff.mpr hcwd
    rw [List.length_append, List.length_singleton] at hx
    omega
  have ha : fs' [b!"a"] = none := h3 _ (ne _ (by simp))
  obtain ⟨digits, hx⟩ := hex_exists (List.replicate 20 7)
  obtain ⟨A', s, g3, -, -, -, g4⟩ := C54_refuted_program (thread := 0) h1 hsha (by simp) init_up (by show 0 < 1; decide) (by simp)
    (C71_hex_partial w.build (List.replicate 20 7) digits [] (by simp) hx rfl (by simp)) (by simp)
    ⟨.inr (h3 _ (other_name (by decide) [])), h3 _ (other_name (by decide) _)⟩ [b!"a"]
    ⟨by simp, by decide⟩ (by decide +kernel) (by decide) (by
      rintro ⟨t, ht⟩
      have e := congrArg List.length ht
      have := List.length_pos_iff.mpr hcwd
      simp only [List.length_append, List.length_singleton] at e
      omega) [1, 2, 3] (by simp) (by decide) trivial
    (by
      intro q hq hne c
      have hl : q.length ≤ 1 := hq.length_le
      rw [show (App.proc _).fs q = fs' q from rfl, h3 q (ne q hl)]
      simp)
    (by rw [show (App.proc _).fs [b!"a"] = fs' [b!"a"] from rfl, ha]; simp)
    (by
      intro c hc
      have : readFile fs' [b!"a"] = some c := hc
      rw [readFile, ha] at this
      cases this)
  have hrun := h1.trans g3.steps
  have hsize : sizeAt A'.proc.fs [b!"a"] = 3 := by
    rw [readFile] at g4
    rw [sizeAt]
    cases hn : A'.proc.fs [b!"a"] with
    | none => rw [hn] at g4; cases g4
    | some n =>
      rw [hn] at g4
      cases n with
      | dir => cases g4
      | file c => cases g4; rfl
  refine ⟨A', hrun, hsize, ?_⟩
  have hown : ¬ OwnPlace w.cwd [b!"a"] := by
    rintro (e | ⟨name, -, -, e⟩)
    · exact ne _ (by simp) e
    · have e := congrArg List.length e
      simp only [List.length_append, List.length_cons, List.length_nil] at e
      omega
  rcases C126_file_partial hrun (.inl hw) [b!"a"] hown with h | h
  · rw [hsize] at h
    exact absurd h (by decide)
  · rw [hsize] at h
    exact h

end RustBit
