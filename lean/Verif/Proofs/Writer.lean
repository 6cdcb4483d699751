import Verif.Model.Writer
import Verif.Spec.Writer
import Verif.Proofs.Prelude

namespace RustBit
open Spec

theorem uadd_ok {ε : Type} {m : Build} {a b : Nat} (h : a + b < 2 ^ 64) : (uadd m a b : Res ε Nat) = .ok (a + b) := by
  simp [uadd, h]

theorem usub_ok {ε : Type} {m : Build} {a b : Nat} (h : b ≤ a) : (usub m a b : Res ε Nat) = .ok (a - b) := by
  simp [usub, h]

theorem umul_ok {ε : Type} {m : Build} {a b : Nat} (h : a * b < 2 ^ 64) : (umul m a b : Res ε Nat) = .ok (a * b) := by
  simp [umul, h]

/-- The writer the code should produce for a part. -/
def toWriter (files : List File) (p : Part) : FileWriter :=
  ⟨(files[p.file]?.map File.path).getD [], p.offset, p.offset + p.data.length, p.data⟩

/-- `Placed` with the first file beginning at `base`. -/
def PlacedFrom (base : Nat) (files : List File) : Nat → List Part → Prop
  | _, [] => True
  | pos, p :: ps => (∃ f, files[p.file]? = some f ∧ p.offset + p.data.length ≤ f.length) ∧
      base + fileStart files p.file + p.offset = pos ∧ PlacedFrom base files (pos + p.data.length) ps

theorem placedFrom_zero {files : List File} {ps : List Part} : ∀ {pos : Nat}, PlacedFrom 0 files pos ps ↔ Placed files pos ps := by
  induction ps with
  | nil => simp [PlacedFrom, Placed]
  | cons p ps ih => intro pos; simp [PlacedFrom, Placed, ih]

/-- The same part seen from one more file in front. -/
def _root_.Spec.Part.shift (p : Part) : Part := { p with file := p.file + 1 }

theorem placedFrom_shift {base : Nat} {f : File} {files : List File} {ps : List Part} : ∀ {pos : Nat},
    PlacedFrom (base + f.length) files pos ps → PlacedFrom base (f :: files) pos (ps.map Part.shift) := by
  induction ps with
  | nil => simp [PlacedFrom]
  | cons p ps ih =>
    intro pos ⟨h1, h2, h3⟩
    refine ⟨by simpa [Part.shift] using h1, ?_, ih h3⟩
    simp only [Part.shift, fileStart, List.take_succ_cons, List.map_cons, List.sum_cons] at h2 ⊢
    omega

theorem toWriter_shift (f : File) (files : List File) (p : Part) : toWriter (f :: files) p.shift = toWriter files p := by
  simp [toWriter, Part.shift]

theorem drop_take_join {α : Type} (l : List α) (a b n : Nat) (h : a ≤ b) :
    (l.take b).drop a ++ (l.drop b).take n = (l.drop a).take (b - a + n) := by
  rw [List.drop_take, List.take_add]
  congr 2
  rw [List.drop_drop]
  congr 1
  omega

theorem fileWritersLoop_spec {ε : Type} (m : Build) (piece : Bytes) : ∀ (files : List File) (rb off e : Nat) (acc : List FileWriter),
    (rb ≤ off ∨ rb < off + piece.length) →
    (∀ k f, files[k]? = some f → rb + fileStart files k < max (off + 1) (off + piece.length) → rb + fileStart files k + f.length < 2 ^ 64) →
    off + piece.length < 2 ^ 64 →
    ∃ parts : List Part,
      (fileWritersLoop m piece files ⟨piece.length, off, max off rb, e, rb⟩ acc : Res ε _) =
        .ok (acc ++ parts.map (toWriter files)) ∧
      PlacedFrom rb files (max off rb) parts ∧ (parts.map Part.file).Pairwise (· < ·) ∧
      parts.flatMap Part.data = (piece.drop (max off rb - off)).take (rb + total files - max off rb) ∧
      (∀ k f, files[k]? = some f → off < rb + fileStart files k + f.length → rb + fileStart files k < off + piece.length →
        ∃ p ∈ parts, p.file = k) ∧
      (∀ p ∈ parts, ∀ f, files[p.file]? = some f → off < rb + fileStart files p.file + f.length ∧
        (rb + fileStart files p.file ≤ off ∨ rb + fileStart files p.file < off + piece.length)) := by
  intro files
  induction files with
  | nil =>
    intro rb off e acc _ _ _
    exact ⟨[], by simp [fileWritersLoop], by simp [PlacedFrom], by simp, by
      have : rb + total [] - max off rb = 0 := by simp [total]; omega
      simp [this], by simp, by simp⟩
  | cons f files ih =>
    intro rb off e acc hrb ht hp
    have htot : total (f :: files) = f.length + total files := by simp [total]
    have ht0 : rb + f.length < 2 ^ 64 := by
      have := ht 0 f rfl
      simp only [fileStart, List.take_zero, List.map_nil, List.sum_nil, Nat.add_zero] at this
      exact this (by omega)
    have ht' : ∀ k g, files[k]? = some g → rb + f.length + fileStart files k < max (off + 1) (off + piece.length) →
        rb + f.length + fileStart files k + g.length < 2 ^ 64 := by
      intro k g hk hlt
      have hs : fileStart (f :: files) (k + 1) = f.length + fileStart files k := by simp [fileStart]
      have := ht (k + 1) g (by simpa using hk) (by omega)
      omega
    rw [fileWritersLoop]
    simp only [FileParser.updateRightFileBoundary]
    rw [uadd_ok ht0]
    simp only [Res.bind_ok, FileParser.isPieceInFile]
    by_cases hin : off < rb + f.length
    · simp only [hin, decide_true, if_true, FileParser.updateEndFileIndex]
      rw [uadd_ok hp]
      simp only [Res.bind_ok, FileParser.getStartFileIndex, FileParser.getEndFileIndex, FileParser.getStartPieceIndex,
        FileParser.getEndPieceIndex, FileParser.isPieceFinished]
      have e1 : (usub m (rb + f.length) f.length : Res ε Nat) = .ok rb := by rw [usub_ok (by omega)]; congr 1; omega
      have e2 : (usub m (max off rb) rb : Res ε Nat) = .ok (max off rb - rb) := usub_ok (by omega)
      have e3 : (usub m (min (rb + f.length) (off + piece.length)) rb : Res ε Nat) =
        .ok (min (rb + f.length) (off + piece.length) - rb) := usub_ok (by omega)
      have e4 : (usub m (max off rb) off : Res ε Nat) = .ok (max off rb - off) := usub_ok (by omega)
      have e5 : (usub m (min (rb + f.length) (off + piece.length)) off : Res ε Nat) =
        .ok (min (rb + f.length) (off + piece.length) - off) := usub_ok (by omega)
      simp only [e1, Res.bind_ok, e2, e3, e4, e5]
      have hle : max off rb - off ≤ min (rb + f.length) (off + piece.length) - off := by omega
      rw [slice_of_le hle (by omega), uadd_ok hp]
      simp only [Res.bind_ok]
      by_cases hmore : off + piece.length > rb + f.length
      · simp only [hmore, decide_true, if_true, FileParser.updateStartFileIndex]
        have hmin : min (rb + f.length) (off + piece.length) = rb + f.length := by omega
        rw [hmin]
        have hmax : rb + f.length = max off (rb + f.length) := by omega
        obtain ⟨parts, h1, h2, h3, h4, h5, h6⟩ := ih (rb + f.length) off (rb + f.length)
          (acc ++ [⟨f.path, max off rb - rb, rb + f.length - rb,
            (piece.take (rb + f.length - off)).drop (max off rb - off)⟩]) (.inr (by omega)) ht' hp
        rw [← hmax] at h1 h2 h4
        have hlen : ((piece.take (rb + f.length - off)).drop (max off rb - off)).length = rb + f.length - max off rb := by
          simp only [List.length_drop, List.length_take]
          omega
        refine ⟨⟨0, max off rb - rb, (piece.take (rb + f.length - off)).drop (max off rb - off)⟩ :: parts.map Part.shift,
          ?_, ⟨⟨f, rfl, ?_⟩, ?_, ?_⟩, ?_, ?_, ?_, ?_⟩
        · rw [h1]
          simp only [List.append_assoc, List.map_cons, List.map_map, List.cons_append, List.nil_append]
          congr 3
          · simp only [toWriter, List.getElem?_cons_zero, Option.map_some, Option.getD_some, hlen]
            congr 1
            omega
        · simp only [hlen]; omega
        · simp only [fileStart, List.take_zero, List.map_nil, List.sum_nil]; omega
        · simp only [hlen]
          have : max off rb + (rb + f.length - max off rb) = rb + f.length := by omega
          rw [this]
          exact placedFrom_shift h2
        · simp only [List.map_cons, List.map_map, List.pairwise_cons]
          refine ⟨?_, ?_⟩
          · intro x hx
            simp only [List.mem_map, Function.comp, Part.shift] at hx
            obtain ⟨p, -, rfl⟩ := hx
            omega
          · rw [List.pairwise_map] at h3 ⊢
            exact h3.imp (fun h => by simp only [Function.comp, Part.shift]; omega)
        · have hfm : (parts.map Part.shift).flatMap Part.data = parts.flatMap Part.data := by
            rw [List.flatMap_map]; rfl
          rw [List.flatMap_cons, hfm, h4, drop_take_join _ _ _ _ (by omega), htot]
          congr 1
          omega
        · intro k g hk hk1 hk2
          cases k with
          | zero => exact ⟨_, List.mem_cons_self, rfl⟩
          | succ k =>
            simp only [List.getElem?_cons_succ] at hk
            have hs : fileStart (f :: files) (k + 1) = f.length + fileStart files k := by simp [fileStart]
            rw [hs] at hk1 hk2
            obtain ⟨p, hp, hpk⟩ := h5 k g hk (by omega) (by omega)
            exact ⟨p.shift, List.mem_cons_of_mem _ (List.mem_map_of_mem hp), by simp [Part.shift, hpk]⟩
        · intro p hp g hg
          rcases List.mem_cons.mp hp with rfl | hp
          · simp only [List.getElem?_cons_zero, Option.some.injEq] at hg
            subst hg
            simp only [fileStart, List.take_zero, List.map_nil, List.sum_nil]
            omega
          · obtain ⟨p', hp', rfl⟩ := List.mem_map.mp hp
            simp only [Part.shift, List.getElem?_cons_succ] at hg ⊢
            have hs : fileStart (f :: files) (p'.file + 1) = f.length + fileStart files p'.file := by simp [fileStart]
            have := h6 p' hp' g hg
            omega
      · simp only [hmore, decide_false, Bool.false_eq_true, if_false]
        have hmin : min (rb + f.length) (off + piece.length) = off + piece.length := by omega
        rw [hmin]
        have hsub : off + piece.length - off = piece.length := by omega
        rw [hsub, List.take_length]
        refine ⟨[⟨0, max off rb - rb, piece.drop (max off rb - off)⟩], ?_, ⟨⟨f, rfl, ?_⟩, ?_, trivial⟩, ?_, ?_, ?_, ?_⟩
        · simp only [List.map_cons, List.map_nil, toWriter, List.getElem?_cons_zero, Option.map_some, Option.getD_some,
            List.length_drop]
          congr 5
          omega
        · simp only [List.length_drop]; omega
        · simp only [fileStart, List.take_zero, List.map_nil, List.sum_nil]; omega
        · simp
        · simp only [List.flatMap_cons, List.flatMap_nil, List.append_nil]
          rw [List.take_of_length_le]
          simp only [List.length_drop]
          omega
        · intro k g hk hk1 hk2
          cases k with
          | zero => exact ⟨_, List.mem_cons_self, rfl⟩
          | succ k =>
            have hs : fileStart (f :: files) (k + 1) = f.length + fileStart files k := by simp [fileStart]
            omega
        · intro p hp g hg
          rw [List.mem_singleton.mp hp] at hg ⊢
          simp only [List.getElem?_cons_zero, Option.some.injEq] at hg
          subst hg
          simp only [fileStart, List.take_zero, List.map_nil, List.sum_nil]
          omega
    · simp only [hin, decide_false, Bool.false_eq_true, if_false]
      have hm : max off rb = max off (rb + f.length) := by omega
      obtain ⟨parts, h1, h2, h3, h4, h5, h6⟩ := ih (rb + f.length) off e acc (.inl (by omega)) ht' hp
      rw [hm]
      refine ⟨parts.map Part.shift, ?_, placedFrom_shift h2, ?_, ?_, ?_, ?_⟩
      · rw [h1, List.map_map]
        congr 2
      · rw [List.map_map]
        rw [List.pairwise_map] at h3 ⊢
        exact h3.imp (fun h => by simp only [Function.comp, Part.shift]; omega)
      · have hfm : (parts.map Part.shift).flatMap Part.data = parts.flatMap Part.data := by
          rw [List.flatMap_map]; rfl
        rw [hfm, h4, htot]
        congr 1
        omega
      · intro k g hk hk1 hk2
        cases k with
        | zero =>
          simp only [List.getElem?_cons_zero, Option.some.injEq] at hk
          subst hk
          simp [fileStart] at hk1
          omega
        | succ k =>
          simp only [List.getElem?_cons_succ] at hk
          have hs : fileStart (f :: files) (k + 1) = f.length + fileStart files k := by simp [fileStart]
          rw [hs] at hk1 hk2
          obtain ⟨p, hp, hpk⟩ := h5 k g hk (by omega) (by omega)
          exact ⟨p.shift, List.mem_map_of_mem hp, by simp [Part.shift, hpk]⟩
      · intro p hp g hg
        obtain ⟨p', hp', rfl⟩ := List.mem_map.mp hp
        simp only [Part.shift, List.getElem?_cons_succ] at hg ⊢
        have hs : fileStart (f :: files) (p'.file + 1) = f.length + fileStart files p'.file := by simp [fileStart]
        have := h6 p' hp' g hg
        omega

theorem fileEnd_le_total : ∀ (files : List File) (k : Nat) (f : File), files[k]? = some f → fileStart files k + f.length ≤ total files
  | [], _, _, h => by simp at h
  | g :: files, 0, f, h => by simp at h; subst h; simp [fileStart, total]
  | g :: files, k + 1, f, h => by
    have ih := fileEnd_le_total files k f (by simpa using h)
    have hs : fileStart (g :: files) (k + 1) = g.length + fileStart files k := by simp [fileStart]
    have ht : total (g :: files) = g.length + total files := by simp [total]
    omega

theorem getFileWriters_specG {ε : Type} (m : Build) (files : List File) (piece : Bytes) (idx pl : Nat)
    (ht : ∀ k f, files[k]? = some f → fileStart files k < max (idx * pl + 1) (idx * pl + piece.length) → fileStart files k + f.length < 2 ^ 64) (hp : idx * pl + piece.length < 2 ^ 64) :
    ∃ parts : List Part,
      (getFileWriters m files piece idx pl : Res ε _) = .ok (parts.map (toWriter files)) ∧
      Placed files (idx * pl) parts ∧ (parts.map Part.file).Pairwise (· < ·) ∧
      parts.flatMap Part.data = piece.take (total files - idx * pl) ∧
      (∀ k f, files[k]? = some f → idx * pl < fileStart files k + f.length → fileStart files k < idx * pl + piece.length →
        ∃ p ∈ parts, p.file = k) ∧
      (∀ p ∈ parts, ∀ f, files[p.file]? = some f → idx * pl < fileStart files p.file + f.length ∧
        (fileStart files p.file ≤ idx * pl ∨ fileStart files p.file < idx * pl + piece.length)) := by
  unfold getFileWriters FileParser.new
  rw [umul_ok (by omega)]
  simp only [Res.bind_ok]
  obtain ⟨parts, h1, h2, h3, h4, h5, h6⟩ := fileWritersLoop_spec (ε := ε) m piece files 0 (idx * pl) 0 [] (.inl (by omega))
    (by simpa only [Nat.zero_add] using ht) hp
  have hz : max (idx * pl) 0 = idx * pl := by omega
  rw [hz] at h1 h2 h4
  refine ⟨parts, by simpa using h1, placedFrom_zero.mp h2, h3, ?_, ?_, ?_⟩
  · rw [h4]
    simp
  · intro k f hk hk1 hk2
    exact h5 k f hk (by omega) (by omega)
  · intro p hp f hf
    have := h6 p hp f hf
    omega

theorem getFileWriters_spec {ε : Type} (m : Build) (files : List File) (piece : Bytes) (idx pl : Nat)
    (ht : total files < 2 ^ 64) (hp : idx * pl + piece.length < 2 ^ 64) :
    ∃ parts : List Part,
      (getFileWriters m files piece idx pl : Res ε _) = .ok (parts.map (toWriter files)) ∧
      Placed files (idx * pl) parts ∧ (parts.map Part.file).Pairwise (· < ·) ∧
      parts.flatMap Part.data = piece.take (total files - idx * pl) ∧
      (∀ k f, files[k]? = some f → idx * pl < fileStart files k + f.length → fileStart files k < idx * pl + piece.length →
        ∃ p ∈ parts, p.file = k) ∧
      (∀ p ∈ parts, ∀ f, files[p.file]? = some f → idx * pl < fileStart files p.file + f.length ∧
        (fileStart files p.file ≤ idx * pl ∨ fileStart files p.file < idx * pl + piece.length)) := by
  refine getFileWriters_specG m files piece idx pl (fun k f hk _ => ?_) hp
  have := fileEnd_le_total files k f hk
  omega

/-! ### What the parts are parts of -/

theorem placed_data {files : List File} {d : Bytes} {ps : List Part} : ∀ {pos n : Nat}, Placed files pos ps →
    ps.flatMap Part.data = (d.drop pos).take n →
    ∀ p ∈ ps, p.data = (d.drop (fileStart files p.file + p.offset)).take p.data.length ∧
      fileStart files p.file + p.offset + p.data.length ≤ d.length ∨ p.data = [] := by
  induction ps with
  | nil => simp
  | cons q ps ih =>
    intro pos n ⟨h1, h2, h3⟩ hd p hp
    rw [List.flatMap_cons] at hd
    have hlen := congrArg List.length hd
    simp only [List.length_append, List.length_take, List.length_drop] at hlen
    have hq : q.data = (d.drop pos).take q.data.length := by
      have := congrArg (List.take q.data.length) hd
      rw [List.take_append_of_le_length (Nat.le_refl _), List.take_length, List.take_take] at this
      rw [this]
      congr 1
      simp only [List.length_take, List.length_drop]
      omega
    have hr : ps.flatMap Part.data = (d.drop (pos + q.data.length)).take (n - q.data.length) := by
      have := congrArg (List.drop q.data.length) hd
      rw [List.drop_append_of_le_length (Nat.le_refl _), List.drop_length, List.nil_append, List.drop_take,
        List.drop_drop] at this
      exact this
    rcases List.mem_cons.mp hp with rfl | hp'
    · by_cases he : p.data = []
      · exact .inr he
      · left
        have : 0 < p.data.length := List.length_pos_iff.mpr he
        rw [h2]
        exact ⟨hq, by omega⟩
    · exact ih h3 hr p hp'

theorem placed_covers {files : List File} {ps : List Part} : ∀ {pos : Nat}, Placed files pos ps →
    ∀ g, pos ≤ g → g < pos + (ps.flatMap Part.data).length →
    ∃ p ∈ ps, fileStart files p.file + p.offset ≤ g ∧ g < fileStart files p.file + p.offset + p.data.length := by
  induction ps with
  | nil => intro pos _ g h1 h2; simp at h2; omega
  | cons q ps ih =>
    intro pos ⟨h1, h2, h3⟩ g hg hg2
    rw [List.flatMap_cons, List.length_append] at hg2
    by_cases h : g < pos + q.data.length
    · exact ⟨q, List.mem_cons_self, by omega, by omega⟩
    · obtain ⟨p, hp, hh⟩ := ih h3 g (by omega) (by omega)
      exact ⟨p, List.mem_cons_of_mem _ hp, hh⟩

theorem placed_mem {files : List File} {ps : List Part} : ∀ {pos : Nat}, Placed files pos ps →
    ∀ p ∈ ps, ∃ f, files[p.file]? = some f ∧ p.offset + p.data.length ≤ f.length := by
  induction ps with
  | nil => simp
  | cons q ps ih =>
    intro pos ⟨h1, h2, h3⟩ p hp
    rcases List.mem_cons.mp hp with rfl | hp'
    · exact h1
    · exact ih h3 p hp'

theorem fileStart_succ {files : List File} {k : Nat} {f : File} (h : files[k]? = some f) :
    fileStart files (k + 1) = fileStart files k + f.length := by
  simp [fileStart, List.take_add_one, h]

theorem fileStart_mono {files : List File} {j k : Nat} (h : j ≤ k) : fileStart files j ≤ fileStart files k := by
  obtain ⟨d, rfl⟩ := Nat.exists_eq_add_of_le h
  simp only [fileStart, List.take_add, List.map_append, List.sum_append]
  omega

theorem fileStart_total {files : List File} {k : Nat} {f : File} (h : files[k]? = some f) :
    fileStart files k + f.length ≤ total files := by
  rw [← fileStart_succ h]
  have h1 : total files = fileStart files files.length := by simp [total, fileStart]
  rw [h1]
  apply fileStart_mono
  have := (List.getElem?_eq_some_iff.mp h).1
  omega

/-- A global position determines the file. -/
theorem file_unique {files : List File} {j k g : Nat} {f f' : File} (hj : files[j]? = some f) (hk : files[k]? = some f')
    (h1 : fileStart files j ≤ g) (h2 : g < fileStart files j + f.length)
    (h3 : fileStart files k ≤ g) (h4 : g < fileStart files k + f'.length) : j = k := by
  rcases Nat.lt_trichotomy j k with h | h | h
  · have := fileStart_mono (files := files) (show j + 1 ≤ k from h)
    rw [fileStart_succ hj] at this; omega
  · exact h
  · have := fileStart_mono (files := files) (show k + 1 ≤ j from h)
    rw [fileStart_succ hk] at this; omega

/-! ### Paths -/

theorem segments_ne_nil (s : Bytes) : segments s ≠ [] := by
  induction s with
  | nil => simp [segments]
  | cons b t ih =>
    rw [segments]
    split
    · simp
    · split <;> simp

theorem segments_plain (c : Bytes) (h : c!"/" ∉ c) : segments c = [c] := by
  induction c with
  | nil => rfl
  | cons b t ih =>
    simp only [List.mem_cons, not_or] at h
    rw [segments, if_neg (fun e => h.1 e.symm), ih h.2]

theorem segments_append (c t : Bytes) (h : c!"/" ∉ c) : segments (c ++ c!"/" :: t) = c :: segments t := by
  induction c with
  | nil => simp [segments]
  | cons b r ih =>
    simp only [List.mem_cons, not_or] at h
    rw [List.cons_append, segments, if_neg (fun e => h.1 e.symm), ih h.2]

theorem segments_joinPath (path : List Bytes) (hne : path ≠ []) (h : ∀ c ∈ path, c!"/" ∉ c) :
    segments (joinPath path) = path := by
  induction path with
  | nil => exact absurd rfl hne
  | cons c t ih =>
    cases t with
    | nil => simp only [joinPath]; exact segments_plain c (h c (by simp))
    | cons d t =>
      simp only [joinPath]
      rw [segments_append c _ (h c (by simp)), ih (by simp) (fun x hx => h x (List.mem_cons_of_mem _ hx))]

theorem parse_plain (path : List Bytes) (h : Plain path) : PathBuf.parse (joinPath path) = ⟨false, path, false⟩ := by
  obtain ⟨hne, hp⟩ := h
  have hs := segments_joinPath path hne (fun c hc => (hp c hc).2.2.2.1)
  unfold PathBuf.parse
  rw [hs]
  congr 1
  · cases path with
    | nil => exact absurd rfl hne
    | cons c t =>
      have h1 := (hp c (by simp)).1
      have h2 := (hp c (by simp)).2.2.2.1
      cases c with
      | nil => exact absurd rfl h1
      | cons b r =>
        simp only [List.mem_cons, not_or] at h2
        have : (joinPath ((b :: r) :: t)).head? = some b := by
          cases t <;> simp [joinPath]
        rw [this]
        simpa using fun e : b = 47 => h2.1 e.symm
  · rw [List.filter_eq_self]
    intro c hc
    have := hp c hc
    simpa using ⟨this.1, this.2.1⟩
  · rw [List.getLast?_eq_some_getLast hne]
    have := hp _ (List.getLast_mem hne)
    simpa using ⟨this.1, this.2.1⟩

/-! ### Directories -/

theorem hasNul_plain {comps : List Bytes} (h : ∀ c ∈ comps, (0 : UInt8) ∉ c) : hasNul comps = false := by
  simp only [hasNul, List.any_eq_false, List.contains_iff_mem]
  exact h

/-- Ordinary names only. -/
def Names (comps : List Bytes) : Prop := ∀ c ∈ comps, c ≠ b!".." ∧ (0 : UInt8) ∉ c

theorem walk_dirs {fs : FS} {comps : List Bytes} : ∀ {l : Loc}, Names comps →
    (∀ q, q ≠ [] → q <+: comps → fs (l ++ q) = some .dir) → fs.walk l comps = .ok (l ++ comps) := by
  induction comps with
  | nil => intro l _ _; simp [FS.walk]
  | cons c cs ih =>
    intro l hn h
    rw [FS.walk, if_neg (hn c (by simp)).1, h [c] (by simp) ⟨cs, rfl⟩]
    simp only []
    rw [ih (fun x hx => hn x (List.mem_cons_of_mem _ hx))]
    · simp
    · intro q hq hpre
      have := h (c :: q) (by simp) (by
        obtain ⟨r, hr⟩ := hpre
        exact ⟨r, by rw [← hr]; rfl⟩)
      simpa using this

theorem walk_missing {fs : FS} {comps : List Bytes} : ∀ {l : Loc}, Names comps →
    (∀ q c, q ≠ [] → q <+: comps → fs (l ++ q) ≠ some (.file c)) →
    (∀ q, q ≠ [] → q <+: comps → fs (l ++ q) = some .dir) ∨ fs.walk l comps = .err .notFound := by
  induction comps with
  | nil => intro l _ _; left; intro q hq hp; simp at hp; exact absurd hp hq
  | cons c cs ih =>
    intro l hn h
    rw [FS.walk, if_neg (hn c (by simp)).1]
    cases hc : fs (l ++ [c]) with
    | none => right; rfl
    | some n =>
      cases n with
      | file x => exact absurd hc (h [c] x (by simp) ⟨cs, rfl⟩)
      | dir =>
        simp only []
        rcases ih (l := l ++ [c]) (fun x hx => hn x (List.mem_cons_of_mem _ hx)) (by
          intro q x hq hpre
          have := h (c :: q) x (by simp) (by
            obtain ⟨r, hr⟩ := hpre
            exact ⟨r, by rw [← hr]; rfl⟩)
          simpa using this) with h' | h'
        · left
          intro q hq hpre
          cases q with
          | nil => exact absurd rfl hq
          | cons a q =>
            obtain ⟨r, hr⟩ := hpre
            simp only [List.cons_append, List.cons.injEq] at hr
            obtain ⟨rfl, hr⟩ := hr
            cases q with
            | nil => exact hc
            | cons b q =>
              have := h' (b :: q) (by simp) ⟨r, hr⟩
              simpa using this
        · right; exact h'

theorem prefix_snoc {α : Type} {q r : List α} {c : α} : q <+: r ++ [c] ↔ q <+: r ∨ q = r ++ [c] := by
  constructor
  · rintro ⟨t, ht⟩
    rcases List.eq_nil_or_concat t with rfl | ⟨t', x, rfl⟩
    · right; simpa using ht
    · left
      rw [List.concat_eq_append, ← List.append_assoc] at ht
      have := (List.append_inj' ht rfl).1
      exact ⟨t', this⟩
  · rintro (⟨t, rfl⟩ | rfl)
    · exact ⟨t ++ [c], by simp⟩
    · exact List.prefix_rfl

theorem mkdir_new {fs : FS} {base : Loc} {r : List Bytes} {c : Bytes} (hn : Names (r ++ [c]))
    (h : ∀ q, q ≠ [] → q <+: r → fs (base ++ q) = some .dir) :
    fs.mkdir base (r ++ [c]) = match fs (base ++ (r ++ [c])) with
      | some _ => .err .other
      | none => .ok (fs.set (base ++ (r ++ [c])) .dir) := by
  unfold FS.mkdir
  rw [hasNul_plain (fun x hx => (hn x hx).2)]
  simp only [Bool.false_eq_true, if_false, List.getLast?_append, List.getLast?_singleton, Option.some_or,
    List.dropLast_concat]
  rw [walk_dirs (fun x hx => hn x (by simp [hx])) h]
  simp only [Res.bind_ok, List.append_assoc]
  rw [if_neg (hn c (by simp)).1]
  cases fs (base ++ (r ++ [c])) <;> rfl

theorem createDirAll_plain {base : Loc} (comps : List Bytes) : ∀ {fs : FS}, Names comps →
    (∀ q c, q ≠ [] → q <+: comps → fs (base ++ q) ≠ some (.file c)) →
    ∃ fs', fs.createDirAll base comps = (.ok (), fs') ∧
      (∀ q, q ≠ [] → q <+: comps → fs' (base ++ q) = some .dir) ∧
      (∀ l, (∀ q, q ≠ [] → q <+: comps → l ≠ base ++ q) → fs' l = fs l) ∧
      ((∀ q, q ≠ [] → q <+: comps → fs (base ++ q) = some .dir) → fs' = fs) := by
  have key : ∀ (rev : List Bytes) {fs : FS}, Names rev.reverse →
      (∀ q c, q ≠ [] → q <+: rev.reverse → fs (base ++ q) ≠ some (.file c)) →
      ∃ fs', fs.createDirAllRev base rev = (.ok (), fs') ∧
        (∀ q, q ≠ [] → q <+: rev.reverse → fs' (base ++ q) = some .dir) ∧
        (∀ l, (∀ q, q ≠ [] → q <+: rev.reverse → l ≠ base ++ q) → fs' l = fs l) ∧
        ((∀ q, q ≠ [] → q <+: rev.reverse → fs (base ++ q) = some .dir) → fs' = fs) := by
    intro rev
    induction rev with
    | nil =>
      intro fs _ _
      refine ⟨fs, rfl, ?_, fun _ _ => rfl, fun _ => rfl⟩
      intro q hq hp
      simp at hp
      exact absurd hp hq
    | cons c rest ih =>
      intro fs hn hf
      have hrev : (c :: rest).reverse = rest.reverse ++ [c] := by simp
      rw [hrev] at hn hf
      have hn' : Names rest.reverse := fun x hx => hn x (by simp [List.mem_reverse.mp hx])
      have hf' : ∀ q x, q ≠ [] → q <+: rest.reverse → fs (base ++ q) ≠ some (.file x) :=
        fun q x hq hp => hf q x hq (prefix_snoc.mpr (.inl hp))
      have hcf : ∀ x, fs (base ++ (rest.reverse ++ [c])) ≠ some (.file x) :=
        fun x => hf _ x (by simp) List.prefix_rfl
      have hself : ∀ q, q <+: rest.reverse → q ≠ rest.reverse ++ [c] := by
        intro q hq e
        have := hq.length_le
        rw [e] at this
        simp at this
        omega
      -- creating the last directory once the others exist
      have last : ∀ (fs1 : FS), (∀ q, q ≠ [] → q <+: rest.reverse → fs1 (base ++ q) = some .dir) →
          (∀ x, fs1 (base ++ (rest.reverse ++ [c])) ≠ some (.file x)) →
          (∃ fs2, fs1.mkdir base (rest.reverse ++ [c]) = .ok fs2 ∧
            (∀ q, q ≠ [] → q <+: rest.reverse ++ [c] → fs2 (base ++ q) = some .dir) ∧
            (∀ l, l ≠ base ++ (rest.reverse ++ [c]) → fs2 l = fs1 l) ∧
            fs1 (base ++ (rest.reverse ++ [c])) = none) ∨
          (fs1.mkdir base (rest.reverse ++ [c]) = .err .other ∧ fs1.isDir base (rest.reverse ++ [c]) = true ∧
            fs1 (base ++ (rest.reverse ++ [c])) = some .dir) := by
        intro fs1 hd hx
        rw [mkdir_new hn hd]
        cases hc : fs1 (base ++ (rest.reverse ++ [c])) with
        | none =>
          left
          refine ⟨_, rfl, ?_, ?_, rfl⟩
          · intro q hq hp
            rcases prefix_snoc.mp hp with hp | rfl
            · rw [FS.set, if_neg (fun e => hself q hp (List.append_cancel_left e))]
              exact hd q hq hp
            · simp [FS.set]
          · intro l hl
            simp only [FS.set]
            rw [if_neg hl]
        | some n =>
          cases n with
          | file x => exact absurd hc (hx x)
          | dir =>
            right
            refine ⟨rfl, ?_, rfl⟩
            unfold FS.isDir
            rw [hasNul_plain (fun x hx => (hn x hx).2), walk_dirs hn]
            · rfl
            · intro q hq hp
              rcases prefix_snoc.mp hp with hp | rfl
              · exact hd q hq hp
              · exact hc
      rw [FS.createDirAllRev, hrev]
      rcases walk_missing (l := base) hn' hf' with hd | hmiss
      · rcases last fs hd hcf with ⟨fs2, e, h1, h2, h3⟩ | ⟨e, hi, h3⟩
        · rw [e]
          refine ⟨fs2, rfl, h1, ?_, ?_⟩
          · intro l hl
            exact h2 l (hl _ (by simp) List.prefix_rfl)
          · intro hall
            have := hall (rest.reverse ++ [c]) (by simp) List.prefix_rfl
            rw [h3] at this
            cases this
        · rw [e]
          simp only [hi, if_true]
          refine ⟨fs, rfl, ?_, fun _ _ => rfl, fun _ => rfl⟩
          intro q hq hp
          rcases prefix_snoc.mp hp with hp | rfl
          · exact hd q hq hp
          · exact h3
      · have e : fs.mkdir base (rest.reverse ++ [c]) = .err .notFound := by
          unfold FS.mkdir
          rw [hasNul_plain (fun x hx => (hn x hx).2)]
          simp only [Bool.false_eq_true, if_false, List.getLast?_append, List.getLast?_singleton, Option.some_or,
            List.dropLast_concat]
          rw [hmiss]
          rfl
        rw [e]
        simp only []
        obtain ⟨fs1, e1, hd1, ho1, hs1⟩ := ih hn' hf'
        rw [e1]
        simp only []
        have hsame : fs1 (base ++ (rest.reverse ++ [c])) = fs (base ++ (rest.reverse ++ [c])) := by
          apply ho1
          intro q hq hp e
          exact hself q hp (List.append_cancel_left e).symm
        have hnotall : ¬ ∀ q, q ≠ [] → q <+: rest.reverse ++ [c] → fs (base ++ q) = some .dir := by
          intro hall
          have := walk_dirs (fs := fs) (l := base) hn' (fun q hq hp => hall q hq (prefix_snoc.mpr (.inl hp)))
          rw [hmiss] at this
          cases this
        rcases last fs1 hd1 (by intro x; rw [hsame]; exact hcf x) with ⟨fs2, e2, h1, h2, h3⟩ | ⟨e2, hi, h3⟩
        · rw [e2]
          refine ⟨fs2, rfl, h1, ?_, fun hall => absurd hall hnotall⟩
          intro l hl
          rw [h2 l (hl _ (by simp) List.prefix_rfl)]
          exact ho1 l (fun q hq hp => hl q hq (prefix_snoc.mpr (.inl hp)))
        · rw [e2]
          simp only [hi, if_true]
          refine ⟨fs1, rfl, ?_, ?_, fun hall => absurd hall hnotall⟩
          · intro q hq hp
            rcases prefix_snoc.mp hp with hp | rfl
            · exact hd1 q hq hp
            · exact h3
          · intro l hl
            exact ho1 l (fun q hq hp => hl q hq (prefix_snoc.mpr (.inl hp)))
  intro fs hn hf
  have := key comps.reverse (fs := fs) (by rwa [List.reverse_reverse]) (by rwa [List.reverse_reverse])
  rw [List.reverse_reverse] at this
  exact this


/-! ### One write -/

theorem pwrite_length (c : Bytes) (s : Nat) (b : Bytes) (hb : b ≠ []) : (pwrite c s b).length = max c.length (s + b.length) := by
  simp only [pwrite, if_neg hb, List.length_append, List.length_take, List.length_replicate, List.length_drop]
  omega

theorem pwrite_length_le (c : Bytes) (s : Nat) (b : Bytes) (n : Nat) (h1 : c.length ≤ n) (h2 : s + b.length ≤ n) :
    (pwrite c s b).length ≤ n := by
  by_cases hb : b = []
  · simpa [pwrite, hb] using h1
  · rw [pwrite_length c s b hb]; omega

/-- The bytes written are there. -/
theorem pwrite_inside (c : Bytes) (s : Nat) (b : Bytes) (i : Nat) (h1 : s ≤ i) (h2 : i < s + b.length) :
    (pwrite c s b)[i]? = b[i - s]? := by
  have hb : b ≠ [] := by intro e; simp [e] at h2; omega
  rw [pwrite, if_neg hb]
  have hl : (c.take s ++ List.replicate (s - c.length) (0 : UInt8)).length = s := by
    simp only [List.length_append, List.length_take, List.length_replicate]; omega
  rw [List.append_assoc (c.take s ++ _), List.getElem?_append_right (by rw [hl]; exact h1), hl,
    List.getElem?_append_left (by omega)]

/-- The other bytes of the file are unchanged. -/
theorem pwrite_outside (c : Bytes) (s : Nat) (b : Bytes) (i : Nat) (hi : i < c.length) (h : i < s ∨ s + b.length ≤ i) :
    (pwrite c s b)[i]? = c[i]? := by
  by_cases hb : b = []
  · simp [pwrite, hb]
  · rw [pwrite, if_neg hb]
    rcases h with h | h
    · rw [List.append_assoc, List.append_assoc, List.getElem?_append_left (by simp; omega), List.getElem?_take, if_pos h]
    · have hl : (c.take s ++ List.replicate (s - c.length) (0 : UInt8) ++ b).length = s + b.length := by
        simp only [List.length_append, List.length_take, List.length_replicate]; omega
      rw [List.getElem?_append_right (by rw [hl]; exact h), hl, List.getElem?_drop]
      congr 1
      omega

/-- Writing what is there already changes nothing. -/
theorem pwrite_same (c : Bytes) (s : Nat) (b : Bytes) (h : ∀ i, i < b.length → c[s + i]? = b[i]?) : pwrite c s b = c := by
  by_cases hb : b = []
  · simp [pwrite, hb]
  · apply List.ext_getElem?
    intro i
    have hpos : 0 < b.length := List.length_pos_iff.mpr hb
    have hlen : s + b.length ≤ c.length := by
      have := h (b.length - 1) (by omega)
      rw [List.getElem?_eq_getElem (l := b) (by omega)] at this
      have := (List.getElem?_eq_some_iff.mp this).1
      omega
    by_cases hi : i < c.length
    · by_cases h1 : s ≤ i ∧ i < s + b.length
      · rw [pwrite_inside c s b i h1.1 h1.2]
        have := h (i - s) (by omega)
        rw [← this]
        congr 1
        omega
      · exact pwrite_outside c s b i hi (by omega)
    · have := pwrite_length c s b hb
      rw [List.getElem?_eq_none (by omega), List.getElem?_eq_none (by omega)]

/-- What is beyond the bytes written stays. -/
theorem pwrite_beyond (c : Bytes) (s : Nat) (b : Bytes) (n : Nat) (h : s + b.length ≤ n) : (pwrite c s b).drop n = c.drop n := by
  apply List.ext_getElem?
  intro i
  rw [List.getElem?_drop, List.getElem?_drop]
  by_cases hi : n + i < c.length
  · exact pwrite_outside c s b _ hi (.inr (by omega))
  · have := pwrite_length_le c s b (n + i) (by omega) (by omega)
    rw [List.getElem?_eq_none this, List.getElem?_eq_none (by omega)]

theorem plain_names {path : List Bytes} (h : Plain path) : Names path :=
  fun c hc => ⟨(h.2 c hc).2.2.1, (h.2 c hc).2.2.2.2⟩

theorem dropLast_prefix_ne {path q : List Bytes} (hne : path ≠ []) (h : q <+: path.dropLast) : q <+: path ∧ q ≠ path := by
  refine ⟨h.trans (List.dropLast_prefix path), fun e => ?_⟩
  have := h.length_le
  rw [e, List.length_dropLast] at this
  have : 0 < path.length := List.length_pos_iff.mpr hne
  omega

theorem prefix_dropLast {path q : List Bytes} (h : q <+: path) (hne : q ≠ path) : q <+: path.dropLast := by
  rcases List.eq_nil_or_concat path with rfl | ⟨r, c, rfl⟩
  · simp at h; simp [h]
  · rw [List.concat_eq_append] at *
    rw [List.dropLast_concat]
    rcases prefix_snoc.mp h with h | h
    · exact h
    · exact absurd h hne

/-- Writing a part of a file with an ordinary path: the file gets the bytes, its directories exist, and nothing
else changes. -/
theorem writeToFilesystem_plain {ε : Type} {cwd : Loc} {fs : FS} {w : FileWriter} (hp : Plain w.path)
    (hf : ∀ q c, q <+: w.path → q ≠ w.path → q ≠ [] → fs (cwd ++ q) ≠ some (.file c))
    (hd : fs (cwd ++ w.path) ≠ some .dir) :
    ∃ fs', (w.writeToFilesystem cwd fs : Res ε Unit × FS) = (.ok (), fs') ∧
      fs' (cwd ++ w.path) = some (.file (pwrite ((readFile fs (cwd ++ w.path)).getD []) w.start w.piece)) ∧
      (∀ q, q ≠ [] → q <+: w.path → q ≠ w.path → fs' (cwd ++ q) = some .dir) ∧
      (∀ l, (∀ q, q ≠ [] → q <+: w.path → l ≠ cwd ++ q) → fs' l = fs l) ∧
      ((∀ q, q ≠ [] → q <+: w.path → q ≠ w.path → fs (cwd ++ q) = some .dir) →
        (∃ c, fs (cwd ++ w.path) = some (.file c) ∧ pwrite c w.start w.piece = c) → fs' = fs) := by
  have hnm := plain_names hp
  have hne := hp.1
  obtain ⟨fs1, e1, h1, h2, h3⟩ := createDirAll_plain (base := cwd) w.path.dropLast (fs := fs)
    (fun c hc => hnm c (List.dropLast_subset _ hc))
    (fun q c hq hpre => hf q c (dropLast_prefix_ne hne hpre).1 (dropLast_prefix_ne hne hpre).2 hq)
  have hsame : fs1 (cwd ++ w.path) = fs (cwd ++ w.path) := by
    apply h2
    intro q hq hpre e
    exact (dropLast_prefix_ne hne hpre).2 (List.append_cancel_left e).symm
  have hloc : cwd ++ w.path.dropLast ++ [w.path.getLast hne] = cwd ++ w.path := by
    rw [List.append_assoc, List.dropLast_concat_getLast]
  have hopen : fs1.openCreate cwd ⟨false, w.path, false⟩ = match fs (cwd ++ w.path) with
      | some .dir => .err .other
      | some (.file _) => .ok (cwd ++ w.path, fs1)
      | none => .ok (cwd ++ w.path, fs1.set (cwd ++ w.path) (.file [])) := by
    unfold FS.openCreate
    simp only [hasNul_plain (fun c hc => (hnm c hc).2), Bool.or_self, Bool.false_eq_true, if_false, PathBuf.base]
    rw [List.getLast?_eq_some_getLast hne]
    simp only []
    rw [walk_dirs (fun c hc => hnm c (List.dropLast_subset _ hc)) h1]
    simp only [Res.bind_ok]
    rw [if_neg (hnm _ (List.getLast_mem hne)).1, hloc, hsame]
    cases fs (cwd ++ w.path) with
    | none => rfl
    | some n => cases n <;> rfl
  have hdirs : ∀ (fs2 : FS) n, (∀ l, l ≠ cwd ++ w.path → fs2 l = fs1 l) → fs2 (cwd ++ w.path) = some n →
      (∀ q, q ≠ [] → q <+: w.path → q ≠ w.path → fs2 (cwd ++ q) = some .dir) ∧
      (∀ l, (∀ q, q ≠ [] → q <+: w.path → l ≠ cwd ++ q) → fs2 l = fs l) := by
    intro fs2 n ha hb
    constructor
    · intro q hq hpre hqne
      rw [ha _ (fun e => hqne (List.append_cancel_left e))]
      exact h1 q hq (prefix_dropLast hpre hqne)
    · intro l hl
      rw [ha _ (hl w.path hne List.prefix_rfl)]
      exact h2 l (fun q hq hpre => hl q hq (dropLast_prefix_ne hne hpre).1)
  unfold FileWriter.writeToFilesystem
  simp only [parse_plain w.path hp, if_neg hne, PathBuf.base, Bool.false_eq_true, if_false, e1]
  rw [hopen]
  cases hc : fs (cwd ++ w.path) with
  | none =>
    simp only [readFile, hc, Option.getD_none]
    refine ⟨_, rfl, ?_, ?_, ?_, ?_⟩
    · simp [FS.writeAt, FS.set]
    · refine (hdirs _ (.file (pwrite [] w.start w.piece)) ?_ (by simp [FS.writeAt, FS.set])).1
      intro l hl; simp [FS.writeAt, FS.set, hl]
    · refine (hdirs _ (.file (pwrite [] w.start w.piece)) ?_ (by simp [FS.writeAt, FS.set])).2
      intro l hl; simp [FS.writeAt, FS.set, hl]
    · rintro - ⟨c, h, -⟩
      cases h
  | some n =>
    cases n with
    | dir => exact absurd hc hd
    | file c =>
      simp only [readFile, hc, Option.getD_some]
      have hs1 : fs1 (cwd ++ w.path) = some (.file c) := by rw [hsame, hc]
      refine ⟨_, rfl, ?_, ?_, ?_, ?_⟩
      · simp [FS.writeAt, FS.set, hs1]
      · refine (hdirs _ (.file (pwrite c w.start w.piece)) ?_ (by simp [FS.writeAt, FS.set, hs1])).1
        intro l hl; simp [FS.writeAt, FS.set, hs1, hl]
      · refine (hdirs _ (.file (pwrite c w.start w.piece)) ?_ (by simp [FS.writeAt, FS.set, hs1])).2
        intro l hl; simp [FS.writeAt, FS.set, hs1, hl]
      · rintro hall ⟨c', h, hsm⟩
        cases h
        have hfs : fs1 = fs := h3 (fun q hq hpre => hall q hq (dropLast_prefix_ne hne hpre).1 (dropLast_prefix_ne hne hpre).2)
        funext l
        simp only [FS.writeAt, FS.set, hs1]
        split
        · rename_i e; rw [e, hc, hsm]
        · rw [hfs]

/-! ### Many writes -/

/-- A part that carries the bytes of the torrent with content `d`. -/
def Right (files : List File) (d : Bytes) (p : Part) : Prop :=
  ∃ f, files[p.file]? = some f ∧ p.offset + p.data.length ≤ f.length ∧
    ∀ i, i < p.data.length → p.data[i]? = d[fileStart files p.file + p.offset + i]?

/-- The bytes of a part are on disk. -/
def OnDisk (fs : FS) (cwd : Loc) (files : List File) (p : Part) : Prop :=
  ∃ f c, files[p.file]? = some f ∧ fs (cwd ++ f.path) = some (.file c) ∧
    (∀ i, i < p.data.length → c[p.offset + i]? = p.data[i]?) ∧
    ∀ q, q ≠ [] → q <+: f.path → q ≠ f.path → fs (cwd ++ q) = some .dir

theorem step_clear {ε : Type} {cwd : Loc} {files : List File} {d : Bytes} {fs : FS} {p : Part}
    (hplain : ∀ f ∈ files, Plain f.path) (hsep : Separate files) (hroom : Clear fs cwd files) (hp : Right files d p) :
    ∃ fs', ((toWriter files p).writeToFilesystem cwd fs : Res ε Unit × FS) = (.ok (), fs') ∧
      Clear fs' cwd files ∧ OnDisk fs' cwd files p ∧
      (∀ p', Right files d p' → OnDisk fs cwd files p' → OnDisk fs' cwd files p') ∧
      (∀ l, (∀ f ∈ files, ∀ q, q ≠ [] → q <+: f.path → l ≠ cwd ++ q) → fs' l = fs l) ∧
      (OnDisk fs cwd files p → fs' = fs) ∧
      (∀ (j : Nat) g, files[j]? = some g → j ≠ p.file → fs' (cwd ++ g.path) = fs (cwd ++ g.path)) ∧
      ∀ g ∈ files, beyond fs' cwd g = beyond fs cwd g := by
  obtain ⟨f, hf, hle, hdata⟩ := hp
  have hmem : f ∈ files := List.mem_of_getElem? hf
  have hw : (toWriter files p).path = f.path := by simp [toWriter, hf]
  obtain ⟨hr1, hr2⟩ := hroom f hmem
  obtain ⟨fs', e, h1, h2, h3, h4⟩ := writeToFilesystem_plain (ε := ε) (cwd := cwd) (fs := fs) (w := toWriter files p)
    (by rw [hw]; exact hplain f hmem) (by rw [hw]; exact hr1) (by rw [hw]; exact hr2)
  rw [hw] at h1 h2 h3 h4
  have hst : (toWriter files p).start = p.offset := rfl
  have hpc : (toWriter files p).piece = p.data := rfl
  rw [hst, hpc] at h1 h4
  -- locations of other files are untouched
  have hother : ∀ (j : Nat) g, files[j]? = some g → j ≠ p.file → fs' (cwd ++ g.path) = fs (cwd ++ g.path) := by
    intro j g hg hj
    apply h3
    intro q hq hpre e
    have := List.append_cancel_left e
    rw [← this] at hpre
    exact hj (hsep j p.file g f hg hf hpre)
  refine ⟨fs', e, ?_, ?_, ?_, ?_, ?_, hother, ?_⟩
  · -- room
    intro g hg
    obtain ⟨j, hj⟩ := List.getElem?_of_mem hg
    obtain ⟨hg1, hg2⟩ := hroom g hg
    refine ⟨?_, ?_⟩
    · intro q c hpre hqne hq hfile
      by_cases hin : q <+: f.path
      · by_cases heq : q = f.path
        · rw [heq] at hpre hqne
          have := hsep p.file j f g hf hj hpre
          rw [this] at hf
          have : f = g := by rw [hf] at hj; exact Option.some.inj hj
          exact hqne (by rw [this])
        · rw [h2 q hq hin heq] at hfile
          cases hfile
      · rw [h3] at hfile
        · exact hg1 q c hpre hqne hq hfile
        · intro q' hq' hpre' e'
          rw [List.append_cancel_left e'] at hin
          exact hin hpre'
    · by_cases hjp : j = p.file
      · rw [hjp, hf] at hj
        cases hj
        rw [h1]
        simp
      · rw [hother j g hj hjp]; exact hg2
  · -- on disk
    refine ⟨f, _, hf, h1, ?_, h2⟩
    intro i hi
    rw [pwrite_inside _ _ _ _ (by omega) (by omega)]
    congr 1
    omega
  · -- earlier parts stay
    rintro p' ⟨f', hf', hle', hdata'⟩ ⟨g, c, hg, hc, hbytes, hdirs⟩
    rw [hf'] at hg
    cases hg
    have hdirs' : ∀ q, q ≠ [] → q <+: f'.path → q ≠ f'.path → fs' (cwd ++ q) = some .dir := by
      intro q hq hpre hqne
      by_cases hin : q <+: f.path
      · by_cases heq : q = f.path
        · rw [heq] at hpre hqne
          have := hsep p.file p'.file f f' hf hf' hpre
          rw [this, hf'] at hf
          cases hf
          exact absurd rfl hqne
        · exact h2 q hq hin heq
      · rw [h3]
        · exact hdirs q hq hpre hqne
        · intro q' hq' hpre' e'
          rw [List.append_cancel_left e'] at hin
          exact hin hpre'
    by_cases hjp : p'.file = p.file
    · rw [hjp, hf] at hf'
      cases hf'
      refine ⟨f, _, by rw [hjp]; exact hf, h1, ?_, hdirs'⟩
      have hcc : (readFile fs (cwd ++ f.path)).getD [] = c := by simp [readFile, hc]
      rw [hcc]
      intro i hi
      by_cases hin : p.offset ≤ p'.offset + i ∧ p'.offset + i < p.offset + p.data.length
      · rw [pwrite_inside _ _ _ _ hin.1 hin.2, hdata (p'.offset + i - p.offset) (by omega), hdata' i hi, hjp]
        congr 1
        omega
      · have hci := hbytes i hi
        have : p'.offset + i < c.length := by
          rw [List.getElem?_eq_getElem hi] at hci
          exact (List.getElem?_eq_some_iff.mp hci).1
        rw [pwrite_outside _ _ _ _ this (by omega)]
        exact hci
    · refine ⟨f', c, hf', ?_, hbytes, hdirs'⟩
      rw [hother _ _ hf' hjp]; exact hc
  · intro l hl
    exact h3 l (fun q hq hpre => hl f hmem q hq hpre)
  · rintro ⟨g, c, hg, hc, hbytes, hdirs⟩
    rw [hf] at hg
    cases hg
    exact h4 hdirs ⟨c, hc, pwrite_same c _ _ hbytes⟩
  · intro g hg
    obtain ⟨j, hj⟩ := List.getElem?_of_mem hg
    by_cases hjp : j = p.file
    · rw [hjp, hf] at hj
      cases hj
      have : readFile fs' (cwd ++ f.path) = some (pwrite ((readFile fs (cwd ++ f.path)).getD []) p.offset p.data) := by rw [readFile, h1]
      rw [beyond, this, Option.getD_some, pwrite_beyond _ _ _ _ hle, beyond]
    · simp only [beyond, readFile, hother j g hj hjp]

theorem room_clear {fs : FS} {cwd : Loc} {files : List File} (h : Room fs cwd files) : Clear fs cwd files :=
  fun f hf => ⟨(h f hf).1, (h f hf).2.1⟩

/-- There is room when the places are clear and nothing is beyond the listed lengths. -/
theorem room_iff {fs : FS} {cwd : Loc} {files : List File} : Room fs cwd files ↔ Clear fs cwd files ∧ ∀ f ∈ files, beyond fs cwd f = [] := by
  constructor
  · refine fun h => ⟨room_clear h, fun f hf => ?_⟩
    have := (h f hf).2.2
    rw [beyond, readFile]
    split
    · rename_i c hc; exact List.drop_of_length_le (this c hc)
    · simp
  · rintro ⟨h1, h2⟩ f hf
    refine ⟨(h1 f hf).1, (h1 f hf).2, fun c hc => ?_⟩
    have := h2 f hf
    rw [beyond, readFile, hc] at this
    exact List.drop_eq_nil_iff.mp this

theorem step_part {ε : Type} {cwd : Loc} {files : List File} {d : Bytes} {fs : FS} {p : Part}
    (hplain : ∀ f ∈ files, Plain f.path) (hsep : Separate files) (hroom : Room fs cwd files) (hp : Right files d p) :
    ∃ fs', ((toWriter files p).writeToFilesystem cwd fs : Res ε Unit × FS) = (.ok (), fs') ∧
      Room fs' cwd files ∧ OnDisk fs' cwd files p ∧
      (∀ p', Right files d p' → OnDisk fs cwd files p' → OnDisk fs' cwd files p') ∧
      (∀ l, (∀ f ∈ files, ∀ q, q ≠ [] → q <+: f.path → l ≠ cwd ++ q) → fs' l = fs l) ∧
      (OnDisk fs cwd files p → fs' = fs) ∧
      (∀ (j : Nat) g, files[j]? = some g → j ≠ p.file → fs' (cwd ++ g.path) = fs (cwd ++ g.path)) := by
  obtain ⟨fs', e, h1, h2, h3, h4, h5, h6, h7⟩ := step_clear (ε := ε) hplain hsep (room_clear hroom) hp
  exact ⟨fs', e, room_iff.mpr ⟨h1, fun f hf => (h7 f hf).trans ((room_iff.mp hroom).2 f hf)⟩, h2, h3, h4, h5, h6⟩

theorem write_clear {ε : Type} {cwd : Loc} {files : List File} {d : Bytes} (ps : List Part) : ∀ {fs : FS},
    (∀ f ∈ files, Plain f.path) → Separate files → Clear fs cwd files → (∀ p ∈ ps, Right files d p) →
    ∃ fs', (writeAllParts cwd fs (ps.map (toWriter files)) : Res ε Unit × FS) = (.ok (), fs') ∧
      Clear fs' cwd files ∧ (∀ p ∈ ps, OnDisk fs' cwd files p) ∧
      (∀ p', Right files d p' → OnDisk fs cwd files p' → OnDisk fs' cwd files p') ∧
      (∀ l, (∀ f ∈ files, ∀ q, q ≠ [] → q <+: f.path → l ≠ cwd ++ q) → fs' l = fs l) ∧
      ((∀ p ∈ ps, OnDisk fs cwd files p) → fs' = fs) ∧
      (∀ (j : Nat) g, files[j]? = some g → (∀ p ∈ ps, j ≠ p.file) → fs' (cwd ++ g.path) = fs (cwd ++ g.path)) ∧
      ∀ g ∈ files, beyond fs' cwd g = beyond fs cwd g := by
  induction ps with
  | nil => intro fs _ _ hr _; exact ⟨fs, rfl, hr, by simp, fun _ _ h => h, fun _ _ => rfl, fun _ => rfl, fun _ _ _ _ => rfl, fun _ _ => rfl⟩
  | cons p ps ih =>
    intro fs hplain hsep hroom hps
    obtain ⟨fs1, e1, r1, o1, k1, u1, s1, t1, b1⟩ := step_clear (ε := ε) hplain hsep hroom (hps p (by simp))
    obtain ⟨fs2, e2, r2, o2, k2, u2, s2, t2, b2⟩ := ih hplain hsep r1 (fun q hq => hps q (List.mem_cons_of_mem _ hq))
    refine ⟨fs2, ?_, r2, ?_, fun q hq ho => k2 q hq (k1 q hq ho), fun l hl => (u2 l hl).trans (u1 l hl), ?_,
      fun j g hg hj => (t2 j g hg (fun q hq => hj q (List.mem_cons_of_mem _ hq))).trans (t1 j g hg (hj p (by simp))), fun g hg => (b2 g hg).trans (b1 g hg)⟩
    · rw [List.map_cons, writeAllParts, e1]
      exact e2
    · intro q hq
      rcases List.mem_cons.mp hq with rfl | hq
      · exact k2 q (hps q (by simp)) o1
      · exact o2 q hq
    · intro hall
      have h1 : fs1 = fs := s1 (hall p (by simp))
      rw [s2 (fun q hq => by rw [h1]; exact hall q (List.mem_cons_of_mem _ hq)), h1]

theorem write_parts {ε : Type} {cwd : Loc} {files : List File} {d : Bytes} (ps : List Part) : ∀ {fs : FS},
    (∀ f ∈ files, Plain f.path) → Separate files → Room fs cwd files → (∀ p ∈ ps, Right files d p) →
    ∃ fs', (writeAllParts cwd fs (ps.map (toWriter files)) : Res ε Unit × FS) = (.ok (), fs') ∧
      Room fs' cwd files ∧ (∀ p ∈ ps, OnDisk fs' cwd files p) ∧
      (∀ p', Right files d p' → OnDisk fs cwd files p' → OnDisk fs' cwd files p') ∧
      (∀ l, (∀ f ∈ files, ∀ q, q ≠ [] → q <+: f.path → l ≠ cwd ++ q) → fs' l = fs l) ∧
      ((∀ p ∈ ps, OnDisk fs cwd files p) → fs' = fs) ∧
      (∀ (j : Nat) g, files[j]? = some g → (∀ p ∈ ps, j ≠ p.file) → fs' (cwd ++ g.path) = fs (cwd ++ g.path)) := by
  intro fs hplain hsep hroom hps
  obtain ⟨fs', e, h1, h2, h3, h4, h5, h6, h7⟩ := write_clear (ε := ε) ps hplain hsep (room_clear hroom) hps
  exact ⟨fs', e, room_iff.mpr ⟨h1, fun f hf => (h7 f hf).trans ((room_iff.mp hroom).2 f hf)⟩, h2, h3, h4, h5, h6⟩

theorem writeAllParts_append {ε : Type} (cwd : Loc) (a b : List FileWriter) : ∀ (fs fs' : FS),
    (writeAllParts cwd fs a : Res ε Unit × FS) = (.ok (), fs') →
    (writeAllParts cwd fs (a ++ b) : Res ε Unit × FS) = writeAllParts cwd fs' b := by
  induction a with
  | nil => intro fs fs' h; simp only [writeAllParts, Prod.mk.injEq, true_and] at h; rw [h]; rfl
  | cons w a ih =>
    intro fs fs' h
    rw [List.cons_append]
    rw [writeAllParts] at h ⊢
    generalize (w.writeToFilesystem cwd fs : Res ε Unit × FS) = r at h ⊢
    obtain ⟨r1, f1⟩ := r
    cases r1 with
    | ok u => exact ih _ _ h
    | err e => simp at h
    | panic => simp at h
    | hang => simp at h

/-! ### From parts to bytes -/

theorem right_of_placed {files : List File} {d : Bytes} {ps : List Part} {pos n : Nat} (h : Placed files pos ps)
    (hd : ps.flatMap Part.data = (d.drop pos).take n) : ∀ p ∈ ps, Right files d p := by
  intro p hp
  obtain ⟨f, hf, hle⟩ := placed_mem h p hp
  refine ⟨f, hf, hle, ?_⟩
  intro i hi
  rcases placed_data h hd p hp with ⟨h1, h2⟩ | h1
  · rw [h1, List.getElem?_take, if_pos hi, List.getElem?_drop]
  · simp [h1] at hi

theorem diskByte_file {fs : FS} {cwd : Loc} {files : List File} : ∀ {k : Nat} {f : File} {g : Nat}, files[k]? = some f →
    fileStart files k ≤ g → g < fileStart files k + f.length →
    diskByte fs cwd files g = (readFile fs (cwd ++ f.path)).bind (fun c => c[g - fileStart files k]?) := by
  induction files with
  | nil => intro k f g h; simp at h
  | cons x files ih =>
    intro k f g h h1 h2
    cases k with
    | zero =>
      simp only [List.getElem?_cons_zero, Option.some.injEq] at h
      subst h
      simp only [fileStart, List.take_zero, List.map_nil, List.sum_nil] at h1 h2 ⊢
      rw [diskByte, if_pos (by omega)]
      simp
    | succ k =>
      simp only [List.getElem?_cons_succ] at h
      have hs : fileStart (x :: files) (k + 1) = x.length + fileStart files k := by simp [fileStart]
      rw [hs] at h1 h2 ⊢
      rw [diskByte, if_neg (by omega), ih h (by omega) (by omega)]
      congr 2
      funext c
      congr 1
      omega

theorem onDisk_byte {fs : FS} {cwd : Loc} {files : List File} {d : Bytes} {p : Part} (hr : Right files d p)
    (ho : OnDisk fs cwd files p) {g : Nat} (h1 : fileStart files p.file + p.offset ≤ g)
    (h2 : g < fileStart files p.file + p.offset + p.data.length) : diskByte fs cwd files g = d[g]? := by
  obtain ⟨f, hf, hle, hdata⟩ := hr
  obtain ⟨f', c, hf', hc, hbytes, -⟩ := ho
  rw [hf] at hf'
  cases hf'
  rw [diskByte_file hf (by omega) (by omega)]
  simp only [readFile, hc, Option.bind_some]
  have := hbytes (g - fileStart files p.file - p.offset) (by omega)
  have e : p.offset + (g - fileStart files p.file - p.offset) = g - fileStart files p.file := by omega
  rw [e] at this
  rw [this, hdata _ (by omega)]
  congr 1
  omega

/-! ### Confinement -/

theorem onlyBelow_refl (dir : Loc) (fs : FS) : OnlyBelow dir fs fs := fun _ h => absurd rfl h

theorem onlyBelow_trans {dir : Loc} {a b c : FS} (h1 : OnlyBelow dir a b) (h2 : OnlyBelow dir b c) : OnlyBelow dir a c := by
  intro l hl
  by_cases h : b l = a l
  · exact h2 l (by rw [h]; exact hl)
  · exact h1 l h

theorem onlyBelow_set (dir l : Loc) (fs : FS) (n : Node) (h : dir <+: l) : OnlyBelow dir fs (fs.set l n) := by
  intro x hx
  simp only [FS.set] at hx
  split at hx
  · rename_i e; rw [e]; exact h
  · exact absurd rfl hx

theorem walk_inward {fs : FS} {comps : List Bytes} (h : b!".." ∉ comps) : ∀ {l l' : Loc}, fs.walk l comps = .ok l' → l <+: l' := by
  induction comps with
  | nil => intro l l' e; simp only [FS.walk, Res.ok.injEq] at e; rw [e]; exact List.prefix_rfl
  | cons c cs ih =>
    intro l l' e
    simp only [List.mem_cons, not_or] at h
    rw [FS.walk, if_neg (fun x => h.1 x.symm)] at e
    split at e
    · exact (List.prefix_append l [c]).trans (ih h.2 e)
    · simp at e
    · simp at e

theorem mkdir_inward {fs fs' : FS} {base : Loc} {comps : List Bytes} (h : b!".." ∉ comps)
    (e : fs.mkdir base comps = .ok fs') : OnlyBelow base fs fs' := by
  unfold FS.mkdir at e
  split at e
  · simp at e
  · split at e
    · simp at e
    · cases hw : fs.walk base comps.dropLast with
      | ok l =>
        rw [hw] at e
        simp only [Res.bind_ok] at e
        split at e
        · simp at e
        · split at e
          · simp at e
          · simp only [Res.ok.injEq] at e
            rw [← e]
            exact onlyBelow_set _ _ _ _
              ((walk_inward (fun x => h (List.dropLast_subset _ x)) hw).trans (List.prefix_append _ _))
      | err x => rw [hw] at e; simp at e
      | panic => rw [hw] at e; simp at e
      | hang => rw [hw] at e; simp at e

theorem createDirAllRev_inward {base : Loc} {rev : List Bytes} (h : b!".." ∉ rev) (fs : FS) :
    OnlyBelow base fs (fs.createDirAllRev base rev).2 := by
  induction rev with
  | nil => exact onlyBelow_refl _ _
  | cons c rest ih =>
    have h' : b!".." ∉ rest := fun x => h (List.mem_cons_of_mem _ x)
    have hr : b!".." ∉ (c :: rest).reverse := fun x => h (List.mem_reverse.mp x)
    rw [FS.createDirAllRev]
    cases hm : fs.mkdir base (c :: rest).reverse with
    | ok fs1 => exact mkdir_inward hr hm
    | err e =>
      cases e with
      | notFound =>
        simp only []
        have hi := ih h'
        generalize fs.createDirAllRev base rest = r at hi
        obtain ⟨r1, fs1⟩ := r
        cases r1 with
        | ok u =>
          simp only []
          cases hm2 : fs1.mkdir base (c :: rest).reverse with
          | ok fs2 => exact onlyBelow_trans hi (mkdir_inward hr hm2)
          | err e => simp only []; split <;> exact hi
          | panic => simp only []; split <;> exact hi
          | hang => simp only []; split <;> exact hi
        | err e => exact hi
        | panic => exact hi
        | hang => exact hi
      | other => simp only []; split <;> exact onlyBelow_refl _ _
    | panic => simp only []; split <;> exact onlyBelow_refl _ _
    | hang => simp only []; split <;> exact onlyBelow_refl _ _

theorem openCreate_inward {fs fs' : FS} {cwd l : Loc} {p : PathBuf} (ha : p.absolute = false) (h : b!".." ∉ p.comps)
    (e : fs.openCreate cwd p = .ok (l, fs')) : OnlyBelow cwd fs fs' ∧ cwd <+: l := by
  unfold FS.openCreate at e
  simp only [PathBuf.base, ha, Bool.false_eq_true, if_false] at e
  split at e
  · simp at e
  · split at e
    · simp at e
    · cases hw : fs.walk cwd p.comps.dropLast with
      | ok l1 =>
        rw [hw] at e
        simp only [Res.bind_ok] at e
        have hpre := walk_inward (fun x => h (List.dropLast_subset _ x)) hw
        split at e
        · simp at e
        · split at e
          · simp at e
          · simp only [Res.ok.injEq, Prod.mk.injEq] at e
            rw [← e.1, ← e.2]
            exact ⟨onlyBelow_refl _ _, hpre.trans (List.prefix_append _ _)⟩
          · simp only [Res.ok.injEq, Prod.mk.injEq] at e
            rw [← e.1, ← e.2]
            exact ⟨onlyBelow_set _ _ _ _ (hpre.trans (List.prefix_append _ _)), hpre.trans (List.prefix_append _ _)⟩
      | err x => rw [hw] at e; simp at e
      | panic => rw [hw] at e; simp at e
      | hang => rw [hw] at e; simp at e

theorem writeAt_below {dir l : Loc} (fs : FS) (s : Nat) (b : Bytes) (h : dir <+: l) : OnlyBelow dir fs (fs.writeAt l s b) := by
  unfold FS.writeAt
  split
  · exact onlyBelow_set _ _ _ _ h
  · exact onlyBelow_refl _ _

theorem writeToFilesystem_inward {ε : Type} {cwd : Loc} {fs : FS} {w : FileWriter} (h : Inward (joinPath w.path)) :
    OnlyBelow cwd fs (w.writeToFilesystem cwd fs : Res ε Unit × FS).2 := by
  have ha : (PathBuf.parse (joinPath w.path)).absolute = false := by
    simpa [PathBuf.parse] using h.1
  have hc : b!".." ∉ (PathBuf.parse (joinPath w.path)).comps := by
    simp only [PathBuf.parse]
    intro x
    exact h.2 (List.mem_filter.mp x).1
  unfold FileWriter.writeToFilesystem
  simp only []
  generalize PathBuf.parse (joinPath w.path) = p at ha hc
  split
  · exact onlyBelow_refl _ _
  · have hcd : OnlyBelow cwd fs (fs.createDirAll (p.base cwd) p.comps.dropLast).2 := by
      unfold FS.createDirAll
      simp only [PathBuf.base, ha, Bool.false_eq_true, if_false]
      exact createDirAllRev_inward (fun x => hc (List.dropLast_subset _ (List.mem_reverse.mp x))) fs
    generalize fs.createDirAll (p.base cwd) p.comps.dropLast = r at hcd
    obtain ⟨r1, fs1⟩ := r
    cases r1 with
    | ok u =>
      simp only []
      cases ho : fs1.openCreate cwd p with
      | ok x =>
        obtain ⟨l, fs2⟩ := x
        obtain ⟨h1, h2⟩ := openCreate_inward ha hc ho
        exact onlyBelow_trans (onlyBelow_trans hcd h1) (writeAt_below _ _ _ h2)
      | err e => exact hcd
      | panic => exact hcd
      | hang => exact hcd
    | err e => exact hcd
    | panic => exact hcd
    | hang => exact hcd

theorem writeAllParts_inward {ε : Type} {cwd : Loc} {ws : List FileWriter} : ∀ {fs : FS},
    (∀ w ∈ ws, Inward (joinPath w.path)) → OnlyBelow cwd fs (writeAllParts cwd fs ws : Res ε Unit × FS).2 := by
  induction ws with
  | nil => intro fs _; exact onlyBelow_refl _ _
  | cons w ws ih =>
    intro fs h
    rw [writeAllParts]
    have h1 := writeToFilesystem_inward (ε := ε) (cwd := cwd) (fs := fs) (h w (by simp))
    generalize (w.writeToFilesystem cwd fs : Res ε Unit × FS) = r at h1
    obtain ⟨r1, fs1⟩ := r
    cases r1 with
    | ok u => exact onlyBelow_trans h1 (ih (fun x hx => h x (List.mem_cons_of_mem _ hx)))
    | err e => exact h1
    | panic => exact h1
    | hang => exact h1

/-- Every writer is for one of the listed files. -/
theorem fileWritersLoop_paths {ε : Type} (m : Build) (piece : Bytes) (P : List Bytes → Prop) : ∀ (files : List File) (p : FileParser)
    (acc ws : List FileWriter), (∀ f ∈ files, P f.path) → (∀ w ∈ acc, P w.path) →
    (fileWritersLoop m piece files p acc : Res ε _) = .ok ws → ∀ w ∈ ws, P w.path := by
  intro files
  induction files with
  | nil => intro p acc ws _ ha e; simp only [fileWritersLoop, Res.ok.injEq] at e; rw [← e]; exact ha
  | cons f files ih =>
    intro p acc ws hf ha e
    have hb : ∀ {α β : Type} {x : Res ε α} {k : α → Res ε β} {b : β}, (x >>= k) = .ok b → ∃ a, x = .ok a ∧ k a = .ok b := by
      intro α β x k b h
      cases x with
      | ok a => exact ⟨a, rfl, h⟩
      | err e => simp at h
      | panic => simp at h
      | hang => simp at h
    rw [fileWritersLoop] at e
    obtain ⟨p1, -, e⟩ := hb e
    split at e
    · obtain ⟨p2, -, e⟩ := hb e
      obtain ⟨a, -, e⟩ := hb e
      obtain ⟨b, -, e⟩ := hb e
      obtain ⟨i, -, e⟩ := hb e
      obtain ⟨j, -, e⟩ := hb e
      obtain ⟨part, -, e⟩ := hb e
      obtain ⟨more, -, e⟩ := hb e
      have ha' : ∀ w ∈ acc ++ [⟨f.path, a, b, part⟩], P w.path := by
        intro w hw
        rcases List.mem_append.mp hw with hw | hw
        · exact ha w hw
        · simp only [List.mem_singleton] at hw
          rw [hw]
          exact hf f (by simp)
      split at e
      · exact ih _ _ _ (fun x hx => hf x (List.mem_cons_of_mem _ hx)) ha' e
      · simp only [Res.ok.injEq] at e
        rw [← e]; exact ha'
    · exact ih _ _ _ (fun x hx => hf x (List.mem_cons_of_mem _ hx)) ha e

theorem getFileWriters_paths {ε : Type} (m : Build) (P : List Bytes → Prop) {files : List File} {piece : Bytes} {idx pl : Nat}
    {ws : List FileWriter} (hf : ∀ f ∈ files, P f.path)
    (e : (getFileWriters m files piece idx pl : Res ε _) = .ok ws) : ∀ w ∈ ws, P w.path := by
  unfold getFileWriters at e
  cases hn : (FileParser.new m piece.length idx pl : Res ε FileParser) with
  | ok p =>
    rw [hn] at e
    exact fileWritersLoop_paths m piece P files p [] ws hf (by simp) e
  | err x => rw [hn] at e; simp at e
  | panic => rw [hn] at e; simp at e
  | hang => rw [hn] at e; simp at e

/-! ### Whole pieces -/

theorem piece_length (d : Bytes) (pl i : Nat) (h : i * pl ≤ d.length) : i * pl + (piece d pl i).length ≤ d.length := by
  simp only [piece, List.length_take, List.length_drop]
  omega

theorem count_bound {n pl i : Nat} (hpl : 0 < pl) (h : i < pieceCount n pl) : i * pl < n := by
  unfold pieceCount at h
  have h1 := Nat.div_mul_le_self (n + pl - 1) pl
  have h2 : (i + 1) * pl ≤ (n + pl - 1) / pl * pl := Nat.mul_le_mul_right pl h
  rw [Nat.succ_mul] at h2
  omega

theorem lt_count {n pl g : Nat} (hpl : 0 < pl) (h : g < n) : g / pl < pieceCount n pl := by
  unfold pieceCount
  rw [Nat.div_lt_iff_lt_mul hpl]
  have h1 := Nat.div_add_mod (n + pl - 1) pl
  have h2 := Nat.mod_lt (n + pl - 1) hpl
  rw [Nat.mul_comm] at h1
  omega

/-- `ps` are the parts of piece `i` of the torrent with content `d`. -/
structure PieceParts (ε : Type) (m : Build) (files : List File) (d : Bytes) (pl i : Nat) (ps : List Part) : Prop where
  right : ∀ p ∈ ps, Right files d p
  writers : (getFileWriters m files (piece d pl i) i pl : Res ε _) = .ok (ps.map (toWriter files))
  covers : ∀ g, i * pl ≤ g → g < (i + 1) * pl → g < d.length → ∃ p ∈ ps, fileStart files p.file + p.offset ≤ g ∧
    g < fileStart files p.file + p.offset + p.data.length
  touches : ∀ k f, files[k]? = some f → i * pl < fileStart files k + f.length →
    fileStart files k < (i + 1) * pl → fileStart files k < d.length → ∃ p ∈ ps, p.file = k
  only : ∀ p ∈ ps, ∀ f, files[p.file]? = some f → i * pl < fileStart files p.file + f.length ∧
    fileStart files p.file < (i + 1) * pl ∧ fileStart files p.file < d.length

/-- The parts of a piece of the published content. -/
theorem pieceParts {ε : Type} {m : Build} {files : List File} {d : Bytes} {pl i : Nat}
    (htot : total files = d.length) (h64 : d.length < 2 ^ 64) (hpl : 0 < pl) (hi : i < pieceCount d.length pl) :
    ∃ ps : List Part, PieceParts ε m files d pl i ps := by
  have hlt := count_bound hpl hi
  have hlen := piece_length d pl i (by omega)
  obtain ⟨ps, h1, h2, -, h4, h5, h6⟩ := getFileWriters_spec (ε := ε) m files (piece d pl i) i pl (by omega) (by omega)
  rw [List.take_of_length_le (by omega)] at h4
  have hsize : (piece d pl i).length = min pl (d.length - i * pl) := by simp [piece]
  refine ⟨ps, right_of_placed h2 h4, h1, ?_, ?_, ?_⟩
  · intro g hg1 hg2 hg3
    apply placed_covers h2 g hg1
    rw [h4, hsize]
    rw [Nat.succ_mul] at hg2
    omega
  · intro k f hk hk1 hk2 hk3
    apply h5 k f hk hk1
    rw [hsize]
    rw [Nat.succ_mul] at hk2
    omega
  · intro p hp f hf
    have := h6 p hp f hf
    rw [hsize] at this
    rw [Nat.succ_mul]
    omega

end RustBit
