/-
What the whole process does to cached metadata.
-/
import Verif.Props.Torrents
import Verif.Proofs.Race

namespace RustBit
open Spec

/-! ### What is not touched -/

/-- Nothing in `downloads`, nor the directory itself, is different. -/
def SameCache (cwd : Loc) (fs fs' : FS) : Prop := ∀ l, cwd ++ [b!"downloads"] <+: l → fs' l = fs l

theorem sameCache_refl (cwd : Loc) (fs : FS) : SameCache cwd fs fs := fun _ _ => rfl

theorem sameCache_trans {cwd : Loc} {a b c : FS} (h1 : SameCache cwd a b) (h2 : SameCache cwd b c) : SameCache cwd a c :=
  fun l hl => (h2 l hl).trans (h1 l hl)

theorem sameCache_cached {cwd : Loc} {fs fs' : FS} {infoHash : Bytes} {info : Info} (h : SameCache cwd fs fs') (hc : Cached fs cwd infoHash info) :
    Cached fs' cwd infoHash info := by
  refine ⟨(h _ (List.prefix_refl _)).trans hc.1, ?_⟩
  rw [readFile, h (cacheLoc cwd infoHash) ⟨[percentEncode infoHash], by simp [cacheLoc]⟩]
  exact hc.2

theorem head_of_prefix {a : Bytes} {q p : List Bytes} (hq : [a] <+: q) (hp : q <+: p) : p.head? = some a := by
  obtain ⟨r, rfl⟩ := hq.trans hp
  rfl

theorem sameCache_write {ε : Type} {cwd : Loc} {fs : FS} {x : FileWriter} (h : OutsideCache x.path) :
    SameCache cwd fs (x.writeToFilesystem cwd fs : Res ε Unit × FS).2 := by
  intro l hl
  refine Classical.byContradiction fun hne => ?_
  rcases writeToFilesystem_touch (ε := ε) h.1 l hne with ⟨-, q, -, hq, -, rfl⟩ | rfl
  · rw [List.prefix_append_right_inj] at hl
    exact h.2 (head_of_prefix hl hq)
  · rw [List.prefix_append_right_inj] at hl
    exact h.2 (head_of_prefix hl (List.prefix_refl _))

theorem sameCache_torn {cwd : Loc} {fs fs' : FS} {x : FileWriter} (h : OutsideCache x.path) (ht : TornPart cwd fs x fs') : SameCache cwd fs fs' := by
  cases ht with
  | data n => exact sameCache_write (x := { x with piece := x.piece.take n }) h
  | dirs k hk =>
    have ha : (PathBuf.parse (joinPath x.path)).absolute = false := by
      simpa [PathBuf.parse] using h.1.1
    have hb : (PathBuf.parse (joinPath x.path)).base cwd = cwd := by simp [PathBuf.base, ha]
    have hn : (PathBuf.parse (joinPath x.path)).comps = names (joinPath x.path) := rfl
    rw [hb, hn]
    have hc : b!".." ∉ (names (joinPath x.path)).take k := by
      intro y
      exact h.1.2 (List.mem_filter.mp (List.mem_of_mem_take y)).1
    intro l hl
    refine Classical.byContradiction fun hne => ?_
    obtain ⟨-, q, -, hq, rfl⟩ := createDirAll_made hc fs l hne
    rw [List.prefix_append_right_inj] at hl
    exact h.2 (head_of_prefix hl (hq.trans (List.take_prefix _ _)))

theorem sameCache_log {cwd : Loc} {fs fs' : FS} (h : ∀ x, x ≠ cwd ++ logPath.comps → fs' x = fs x) : SameCache cwd fs fs' := by
  intro l hl
  refine h l ?_
  rintro rfl
  rw [List.prefix_append_right_inj, logPath_comps] at hl
  have := head_of_prefix hl (List.prefix_refl _)
  exact absurd this (by decide)

theorem save_dir (i : Info) (cwd : Loc) {fs : FS} {a : Bytes} (ha : 2 < a.length) (hd : fs (cwd ++ [b!"downloads"]) = some .dir) (room : Nat) :
    (i.save cwd fs (cachePath a) room).2 (cwd ++ [b!"downloads"]) = some .dir := by
  have hne := cacheLoc_ne_dir cwd a
  unfold Info.save
  rw [openCreate_cache ha hd]
  cases fs (cacheLoc cwd a) with
  | none => simp only [FS.set]; rw [if_neg hne, if_neg hne]; exact hd
  | some n => cases n with
    | dir => exact hd
    | file c => simp only [FS.set]; rw [if_neg hne]; exact hd

/-- Asking for metadata leaves cached metadata alone, of the same torrent or another. -/
theorem collect_keeps {ε : Type} {m : Build} {cwd : Loc} {fs : FS} {a infoHash : Bytes} {info : Info} (ha : 2 < a.length) (ht : Typed info)
    (hc : Cached fs cwd infoHash info) (dial : Dial) (f : Nat) (peerId : Bytes) (room : Nat) :
    Cached (collectInfo m cwd fs dial f peerId a room : Res ε (Option Info) × FS).2 cwd infoHash info := by
  by_cases he : a = infoHash
  · subst he
    rw [collect_on ha ht hc]
    exact hc
  · have hsave : ∀ i : Info, Cached (i.save cwd fs (cachePath a) room).2 cwd infoHash info := by
      intro i
      refine ⟨?_, ?_⟩
      · exact save_dir i cwd ha hc.1 room
      · rw [readFile, C68_save i cwd fs (i.save cwd fs (cachePath a) room).2 a infoHash ha he room (i.save cwd fs (cachePath a) room).1 rfl]
        exact hc.2
    rw [collectInfo_exists hc.1]
    split
    · exact hc
    · split
      · rename_i i _
        have := hsave i
        split <;> rename_i hv <;> rw [hv] at this <;> exact this
      all_goals exact hc
    all_goals exact hc

/-! ### Steps of the process -/

/-- What is known of a torrent of the process: its state is one of a torrent among others, its info hash is long enough for a file name, and what its writer
has still to write is outside of `downloads`. -/
structure Tidy (w : World) (s : Slot) : Prop where
  among : SlotAmong w s
  hash : 2 < s.sys.torrent.infoHash.length
  parts : ∀ ws, s.parts = some ws → ∀ x ∈ ws, OutsideCache x.path

theorem torn_same {cwd : Loc} {slots : List Slot} {fs fs' : FS} (ht : TornAll cwd fs slots fs')
    (h : ∀ s ∈ slots, ∀ ws, s.parts = some ws → ∀ x ∈ ws, OutsideCache x.path) : SameCache cwd fs fs' := by
  induction ht with
  | nil => exact sameCache_refl _ _
  | skip _ ih => exact ih fun s hs => h s (List.mem_cons_of_mem _ hs)
  | part hx h1 _ ih =>
    exact sameCache_trans (sameCache_torn (h _ (List.mem_cons_self ..) _ hx _ (List.mem_cons_self ..)) h1) (ih fun s hs => h s (List.mem_cons_of_mem _ hs))

theorem tidy_step {w : World} {P P' : Proc} (h : ∀ s ∈ P.slots, Tidy w s) (hQ : ∀ s ∈ P.slots, ∀ i, s.sys.torrent.info = some i → LeavesCache i)
    (hst : PStep w P P') : ∀ s ∈ P'.slots, Tidy w s := by
  have hal := slotAmong_step (fun s hs => (h s hs).among) hst
  have put : ∀ {k : Nat} {x : Slot}, (∀ s ∈ P.slots.set k x, SlotAmong w s) → P.slots[k]? ≠ none →
      2 < x.sys.torrent.infoHash.length → (∀ ws, x.parts = some ws → ∀ y ∈ ws, OutsideCache y.path) → ∀ s ∈ P.slots.set k x, Tidy w s := by
    intro k x ha hk h1 h2 s hs
    rcases List.mem_or_eq_of_mem_set hs with hs' | rfl
    · exact h s hs'
    · exact ⟨ha _ hs, h1, h2⟩
  cases hst with
  | start => exact h
  | log => exact h
  | add hl body infoHash ha =>
    intro s hs
    have := hal s hs
    rcases List.mem_append.mp hs with hs | hs
    · exact h s hs
    · rw [List.mem_singleton.mp hs] at this ⊢
      refine ⟨this, ?_, fun ws e => by cases e⟩
      have := addMagnet_length ha
      show 2 < infoHash.length
      omega
  | act k s t hk hst hw =>
    have hs := h s (List.mem_of_getElem? hk)
    exact put hal (by rw [hk]; simp) (by rw [(act_writer hst hw).2.1]; exact hs.hash) hs.parts
  | begin k s r ready info ws hk hp hu hr hi hg =>
    have hs := h s (List.mem_of_getElem? hk)
    refine put hal (by rw [hk]; simp) hs.hash ?_
    intro ws' e x hx
    cases e
    obtain ⟨n, hkn⟩ := among_known hs.among.1 hi
    obtain ⟨f, hf, e⟩ := paths_listed hkn hr hg x hx
    rw [← e]
    exact hQ s (List.mem_of_getElem? hk) info hi f hf
  | beginCrash k s r ready info hk hp hu hr =>
    exact put hal (by rw [hk]; simp) (h s (List.mem_of_getElem? hk)).hash (fun ws e => by cases e)
  | part k s x xs fs hk hp =>
    have hs := h s (List.mem_of_getElem? hk)
    refine put hal (by rw [hk]; simp) hs.hash ?_
    intro ws e y hy
    cases e
    exact hs.parts _ hp y (List.mem_cons_of_mem _ hy)
  | partCrash k s x xs fs r ready hk hp hr =>
    exact put hal (by rw [hk]; simp) (h s (List.mem_of_getElem? hk)).hash (fun ws e => by cases e)
  | «end» k s r ready hk hp hr =>
    exact put hal (by rw [hk]; simp) (h s (List.mem_of_getElem? hk)).hash (fun ws e => by cases e)
  | stop => exact fun s hs => by cases hs

theorem cached_step {w : World} {P P' : Proc} {infoHash : Bytes} {info : Info} (h : ∀ s ∈ P.slots, Tidy w s) (ht : Typed info)
    (hc : Cached P.fs w.cwd infoHash info) (hst : PStep w P P') : Cached P'.fs w.cwd infoHash info := by
  cases hst with
  | start hl fs hl' => exact sameCache_cached (sameCache_log (createLog_only hl')) hc
  | log n hl line => exact sameCache_cached (sameCache_log fun x hx => writeAt_elsewhere hx) hc
  | add => exact hc
  | act k s t hk hst hw =>
    have hs := h s (List.mem_of_getElem? hk)
    cases hst with
    | collect p rest hd hm hi tcp f peerId room collected fs' hnh hcc =>
      have := collect_keeps (ε := Unit) (m := w.build) hs.hash ht hc (dialOf p.endpoint tcp) f peerId room
      rw [hcc] at this
      exact this
    | write r ready hu hr res fs' hwr =>
      have := congrArg List.length hw
      simp at this
    | announce => exact hc
    | take => exact hc
    | finishOk => exact hc
    | finishErr => exact hc
    | finishPanic => exact hc
    | success => exact hc
    | failed => exact hc
    | found => exact hc
  | begin => exact hc
  | beginCrash => exact hc
  | part k s x xs fs hk hp hw =>
    have := sameCache_write (ε := Unit) (cwd := w.cwd) (fs := P.fs) ((h s (List.mem_of_getElem? hk)).parts _ hp x (List.mem_cons_self ..))
    rw [hw] at this
    exact sameCache_cached this hc
  | partCrash k s x xs fs r ready hk hp hr hw =>
    have := sameCache_write (ε := Unit) (cwd := w.cwd) (fs := P.fs) ((h s (List.mem_of_getElem? hk)).parts _ hp x (List.mem_cons_self ..))
    rw [hw] at this
    exact sameCache_cached this hc
  | «end» => exact hc
  | stop order ho fs ht' =>
    exact sameCache_cached (torn_same ht' fun s hs => (h s (ho.mem_iff.mp hs)).parts) hc

/-- Torrents with this info hash have no metadata, or that which is cached. -/
def Agree (infoHash : Bytes) (info : Info) (P : Proc) : Prop :=
  ∀ s ∈ P.slots, s.sys.torrent.infoHash = infoHash → ∀ i, s.sys.torrent.info = some i → i = info

theorem info_from {w : World} {s t : Sys} {i : Info} (hr : Among w s) (hn : s.torrent.info = none) (hst : Step w s t) (hi : t.torrent.info = some i) :
    ∃ dial f peerId room fs', (collectInfo w.build w.cwd s.fs dial f peerId s.torrent.infoHash room : Res Unit (Option Info) × FS) = (.ok (some i), fs') := by
  have hf : Fresh s := by
    rcases among_inv hr with h | ⟨_, _, h⟩
    · exact h
    · rw [h.hasInfo] at hn; cases hn
  cases hst with
  | announce => rw [hn] at hi; cases hi
  | take => rw [hn] at hi; cases hi
  | finishOk => rw [hn] at hi; cases hi
  | finishErr => rw [hn] at hi; cases hi
  | finishPanic => rw [hn] at hi; cases hi
  | write => rw [hn] at hi; cases hi
  | success endpoint piece idx rest hd hm =>
    obtain ⟨p, e, -⟩ := hf.mail _ (by rw [hm]; exact List.mem_cons_self ..)
    cases e
  | failed endpoint idx rest hd hm =>
    obtain ⟨p, e, -⟩ := hf.mail _ (by rw [hm]; exact List.mem_cons_self ..)
    cases e
  | found p rest hd hm info hi' => rw [hn] at hi'; cases hi'
  | collect p rest hd hm hi' tcp f peerId room collected fs' hnh hcc =>
    refine ⟨dialOf p.endpoint tcp, f, peerId, room, fs', ?_⟩
    rw [hcc, Prod.mk.injEq]
    refine ⟨?_, rfl⟩
    simp only [Sys.after] at hi
    have hp : (s.torrent.addPeer p).info = none := hn
    unfold Torrent.onCollected at hi
    split at hi
    · split at hi
      · exact congrArg (fun x => Res.ok (some x)) (Option.some.inj hi)
      all_goals (rw [hp] at hi; cases hi)
    all_goals (rw [hp] at hi; cases hi)

theorem agree_step {w : World} {P P' : Proc} {infoHash : Bytes} {info : Info} (h : ∀ s ∈ P.slots, Tidy w s) (ht : Typed info)
    (hc : Cached P.fs w.cwd infoHash info) (ha : Agree infoHash info P) (hst : PStep w P P') : Agree infoHash info P' := by
  have put : ∀ {k : Nat} {x : Slot}, (x.sys.torrent.infoHash = infoHash → ∀ i, x.sys.torrent.info = some i → i = info) →
      ∀ s ∈ P.slots.set k x, s.sys.torrent.infoHash = infoHash → ∀ i, s.sys.torrent.info = some i → i = info := by
    intro k x hx s hs
    rcases List.mem_or_eq_of_mem_set hs with hs | rfl
    · exact ha s hs
    · exact hx
  cases hst with
  | start => exact ha
  | log => exact ha
  | add hl body hash h' =>
    intro s hs
    rcases List.mem_append.mp hs with hs | hs
    · exact ha s hs
    · rw [List.mem_singleton.mp hs]
      intro _ i hi
      cases hi
  | act k s t hk hst hw =>
    have hs := h s (List.mem_of_getElem? hk)
    refine put ?_
    intro he i hi
    have he' : s.sys.torrent.infoHash = infoHash := by rw [← he]; exact (act_writer hst hw).2.1.symm
    cases hn : s.sys.torrent.info with
    | some j =>
      obtain ⟨e, -⟩ := C45_fixed (.disk hs.among.1 P.fs) hn (.single hst)
      rw [hi] at e
      cases e
      exact ha s (List.mem_of_getElem? hk) he' i hn
    | none =>
      obtain ⟨dial, f, peerId, room, fs', e⟩ := info_from (.disk hs.among.1 P.fs) hn hst hi
      have hh := hs.hash
      simp only [he'] at e hh
      rw [collect_on hh ht hc] at e
      cases e
      rfl
  | begin k s r ready i ws hk => exact put (ha s (List.mem_of_getElem? hk))
  | beginCrash k s r ready i hk => exact put (ha s (List.mem_of_getElem? hk))
  | part k s x xs fs hk => exact put (ha s (List.mem_of_getElem? hk))
  | partCrash k s x xs fs r ready hk => exact put (ha s (List.mem_of_getElem? hk))
  | «end» k s r ready hk => exact put (ha s (List.mem_of_getElem? hk))
  | stop => exact fun s hs => by cases hs

theorem tidy_steps {w : World} {P P' : Proc} (h : ∀ s ∈ P.slots, Tidy w s) (hQ : ∀ s ∈ P.slots, ∀ i, s.sys.torrent.info = some i → LeavesCache i)
    (hst : PSteps w LeavesCache P P') : (∀ s ∈ P'.slots, Tidy w s) ∧ ∀ s ∈ P'.slots, ∀ i, s.sys.torrent.info = some i → LeavesCache i := by
  induction hst with
  | refl => exact ⟨h, hQ⟩
  | tail _ hs hq ih => exact ⟨tidy_step ih.1 ih.2 hs, hq⟩

theorem kept_steps {w : World} {P P' : Proc} {infoHash : Bytes} {info : Info} (h : ∀ s ∈ P.slots, Tidy w s)
    (hQ : ∀ s ∈ P.slots, ∀ i, s.sys.torrent.info = some i → LeavesCache i) (ht : Typed info) (hc : Cached P.fs w.cwd infoHash info)
    (hst : PSteps w LeavesCache P P') : Cached P'.fs w.cwd infoHash info ∧ (Agree infoHash info P → Agree infoHash info P') := by
  induction hst with
  | refl => exact ⟨hc, id⟩
  | tail h1 hs hq ih =>
    have := (tidy_steps h hQ h1).1
    exact ⟨cached_step this ht ih.1 hs, fun ha => agree_step this ht ih.1 (ih.2 ha) hs⟩

end RustBit
