/-
C75: nothing on the disk is damaged by adding the torrent again, but everything is downloaded again.
-/
import Verif.Props.Ends
import Verif.Props.Process
import Verif.Spec.Resume

namespace RustBit
open Spec

/-- The file a position of the content lies in. -/
theorem file_at {files : List File} : ∀ {g : Nat}, g < total files → ∃ k f, files[k]? = some f ∧ fileStart files k ≤ g ∧ g < fileStart files k + f.length := by
  induction files with
  | nil => intro g h; simp [total] at h
  | cons x files ih =>
    intro g h
    by_cases hx : g < x.length
    · exact ⟨0, x, rfl, by simp [fileStart], by simpa [fileStart] using hx⟩
    · obtain ⟨k, f, h1, h2, h3⟩ := ih (g := g - x.length) (by simp only [total, List.map_cons, List.sum_cons] at h ⊢; omega)
      refine ⟨k + 1, f, h1, ?_, ?_⟩ <;> simp only [fileStart, List.take_succ_cons, List.map_cons, List.sum_cons] at h2 h3 ⊢ <;> omega

/-- C75: whatever is right on the disk when the program starts stays right, at every moment, whatever peers, crashes and other torrents
(elsewhere) do; or a collision of the hash function is at hand. Missing: torrents whose files are not apart, and names beginning with
`test.log` or `downloads` (C69, C70). -/
theorem C75_kept_partial {w : World} {info : Info} {d : Bytes} {fs : FS} {P : Proc} (hd : Describes w.sha info d)
    (hlay : Placeable w.cwd fs (listedFiles info) d info.pieceLength) (hroot : Rooted fs w.cwd (listedFiles info)) (hres : Unreserved info)
    (h : PSteps w (Beside info) (Proc.init fs) P) :
    (∃ r, (info, r) ∈ P.taken ∧ Collision w.sha r.piece (piece d info.pieceLength r.idx)) ∨
    ∀ g, g < d.length → diskByte fs w.cwd (listedFiles info) g = d[g]? → diskByte P.fs w.cwd (listedFiles info) g = d[g]? := by
  rcases inv_steps hd hres (inv_init hlay) h with ⟨r, hr, -, hc⟩ | ⟨-, hk⟩
  · exact .inl ⟨r, hr, hc⟩
  · refine .inr fun g hg hb => ?_
    obtain ⟨k, f, h1, h2, h3⟩ := file_at (files := listedFiles info) (g := g) (by rw [hlay.length]; exact hg)
    rw [diskByte_file h1 h2 h3, List.getElem?_eq_getElem hg] at hb
    have hright : Right (listedFiles info) d ⟨k, g - fileStart (listedFiles info) k, [d[g]]⟩ := by
      refine ⟨f, h1, by simp only [List.length_singleton]; omega, ?_⟩
      intro i hi
      simp only [List.length_singleton] at hi
      obtain rfl : i = 0 := by omega
      simp only [List.getElem?_cons_zero, Nat.add_zero]
      rw [Nat.add_sub_cancel' h2, List.getElem?_eq_getElem hg]
    have hon : OnDisk fs w.cwd (listedFiles info) ⟨k, g - fileStart (listedFiles info) k, [d[g]]⟩ := by
      cases hc : readFile fs (w.cwd ++ f.path) with
      | none => rw [hc] at hb; cases hb
      | some c =>
        rw [hc] at hb
        have hf : fs (w.cwd ++ f.path) = some (.file c) := by
          unfold readFile at hc
          split at hc
          · rename_i c' hc'
            rw [hc', Option.some.inj hc]
          · cases hc
        refine ⟨f, c, h1, hf, ?_, hroot f (List.mem_of_getElem? h1) c hf⟩
        intro i hi
        simp only [List.length_singleton] at hi
        obtain rfl : i = 0 := by omega
        exact hb
    exact onDisk_byte hright ((hk hlay.clear).2.1 _ hright hon) (by simp only; omega) (by simp only [List.length_singleton]; omega)

/-- C75 refuted: whatever is on the disk, at the start and at any time later, a torrent that comes to rest has downloaded every piece in this session. -/
theorem C75_refuted {w : World} {info : Info} {d : Bytes} {s : Sys} (hd : Describes w.sha info d) (hfit : Fits info d)
    (hst : Among w s) (hi : s.torrent.info = some info) (hs : s.torrent.initiated = true) (hl : s.lost = [])
    (hf : flight s = []) : (handed s).Perm (List.range (pieceCount d.length info.pieceLength)) := by
  have hcl : contentLength info = d.length := by rw [contentLength_listed, hd.total]
  have := C43_all_handed_partial hst hi (.inr (by rw [hcl]; exact hfit.length)) hs hl hf
  rwa [count, hcl] at this

/-- The disk after the torrent of three bytes was downloaded. -/
def finishedFs (cwd : Loc) (infoHash : Bytes) (info : Info) : FS := (cachedFs cwd infoHash info).set (cwd ++ [b!"a"]) (.file [1, 2, 3])

theorem finishedFs_layout (w : World) (hash : Bytes) : Layout w.cwd (finishedFs w.cwd hash (threeBytes w.sha)) (listedFiles (threeBytes w.sha)) [1, 2, 3] 2 where
  plain := (threeBytes_layout w hash).plain
  separate := (threeBytes_layout w hash).separate
  room := by
    intro f hf
    obtain ⟨r1, -, -⟩ := (threeBytes_layout w hash).room f hf
    rw [List.mem_singleton.mp hf] at r1 ⊢
    have hat : finishedFs w.cwd hash (threeBytes w.sha) (w.cwd ++ [b!"a"]) = some (.file [1, 2, 3]) := if_pos rfl
    refine ⟨?_, ?_, ?_⟩
    · intro q c hq hne hnil
      have : finishedFs w.cwd hash (threeBytes w.sha) (w.cwd ++ q) = cachedFs w.cwd hash (threeBytes w.sha) (w.cwd ++ q) := by
        rw [finishedFs, FS.set, if_neg]
        intro e
        exact hne (List.append_cancel_left e)
      rw [this]
      exact r1 q c hq hne hnil
    · show finishedFs _ _ _ (w.cwd ++ [b!"a"]) ≠ _
      rw [hat]; simp
    · intro c hc
      have hc : finishedFs _ _ _ (w.cwd ++ [b!"a"]) = _ := hc
      rw [hat] at hc
      cases hc
      exact Nat.le_refl 3
  length := rfl
  small := by decide
  pieceLength := by decide

theorem finishedFs_cached (w : World) (hash : Bytes) : Cached (finishedFs w.cwd hash (threeBytes w.sha)) w.cwd hash (threeBytes w.sha) := by
  have h := cachedFs_cached w.cwd hash (threeBytes w.sha)
  refine ⟨?_, ?_⟩
  · rw [finishedFs, FS.set, if_neg (by simp)]
    exact h.1
  · have : readFile (finishedFs w.cwd hash (threeBytes w.sha)) (cacheLoc w.cwd hash) = readFile (cachedFs w.cwd hash (threeBytes w.sha)) (cacheLoc w.cwd hash) := by
      rw [readFile, readFile, finishedFs, FS.set, if_neg (by simp [cacheLoc])]
    rw [this]
    exact h.2

theorem finishedFs_rooted (w : World) (hash : Bytes) : Rooted (finishedFs w.cwd hash (threeBytes w.sha)) w.cwd (listedFiles (threeBytes w.sha)) := by
  intro f hf c _ q hnil hq hne
  rw [List.mem_singleton.mp hf] at hq hne
  have hq : q <+: [b!"a"] := hq
  rw [List.prefix_cons_iff] at hq
  rcases hq with rfl | ⟨q', rfl, hq'⟩
  · exact absurd rfl hnil
  · rw [List.prefix_nil] at hq'
    subst hq'
    exact absurd rfl hne

/-- Non-vacuity of C75: a disk on which the file is complete, and a session that nevertheless downloads both pieces. -/
example (w : World) (hsha : ∀ b, (w.sha b).length = 20) : ∃ fs t, FilesRight fs w.cwd (listedFiles (threeBytes w.sha)) [1, 2, 3] ∧
    Rooted fs w.cwd (listedFiles (threeBytes w.sha)) ∧ Layout w.cwd fs (listedFiles (threeBytes w.sha)) [1, 2, 3] 2 ∧ Unreserved (threeBytes w.sha) ∧
    Steps w (Sys.init (List.replicate 20 7) fs) t ∧ t.torrent.info = some (threeBytes w.sha) ∧ flight t = [] ∧ t.lost = [] ∧ 0 ∈ handed t ∧ 1 ∈ handed t := by
  have hdl : ∀ f ∈ listedFiles (threeBytes w.sha), f.path.head? ≠ some b!"downloads" := by
    intro f hf
    rw [List.mem_singleton.mp hf]
    show some b!"a" ≠ some b!"downloads"
    decide
  obtain ⟨s, t, h1, -, -, h2, -, h3, h4, h5, -, h6, -⟩ := finish_cached (w := w) (infoHash := List.replicate 20 7) hsha (by decide) (threeBytes_describes hsha)
    ⟨by decide, by show pieceCount 3 2 ≤ 2 ^ 32; decide, by show 2 * pieceCount 3 2 < 2 ^ 64; decide⟩ (by decide) (threeBytes_typed _)
    (finishedFs_layout w _) hdl (finishedFs_cached w _)
  refine ⟨_, t, ?_, finishedFs_rooted w _, finishedFs_layout w _, ?_, h1.trans h2, h3, h4, h5, h6 0 (by show 0 < pieceCount 3 2; decide), h6 1 (by show 1 < pieceCount 3 2; decide)⟩
  · intro k f hk _
    have hm := List.mem_of_getElem? hk
    have hk0 := (List.getElem?_eq_some_iff.mp hk).1
    simp only [listedFiles, threeBytes, List.length_singleton] at hk0
    obtain rfl : k = 0 := by omega
    rw [List.mem_singleton.mp hm]
    show readFile (finishedFs _ _ _) (w.cwd ++ [b!"a"]) = _
    rw [readFile, finishedFs, FS.set, if_pos rfl]
    rfl
  · intro f hf
    rw [List.mem_singleton.mp hf]
    show some b!"a" ≠ some b!"downloads" ∧ some b!"a" ≠ some b!"test.log"
    decide

end RustBit
