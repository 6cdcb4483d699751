/-
C93: the cached metadata of a torrent that is added several times.
-/
import Verif.Proofs.Race

namespace RustBit
open Spec

/-! ### One actor alone -/

/-- How far the only actor has got, and what the disk looks like. -/
def Solo (cwd : Loc) (path : Bytes) (serves : Info → Prop) (fs : FS) : Race → Prop
  | ⟨[.idle], g⟩ => g = fs
  | ⟨[.asking], g⟩ => g = fs ∧ ∃ e, Info.fromFile cwd fs path = .err e
  | ⟨[.got i], g⟩ => g = fs ∧ serves i ∧ ∃ e, Info.fromFile cwd fs path = .err e
  | ⟨[.saving i l p], g⟩ => (serves i ∧ ∃ e, Info.fromFile cwd fs path = .err e) ∧ p ≤ i.json.length ∧ g = (i.save cwd fs path p).2 ∧
      ∃ fs', fs.openCreate cwd (PathBuf.parse path) = .ok (l, fs')
  | ⟨[.done i], g⟩ => (Info.fromFile cwd fs path = .ok i ∧ g = fs) ∨
      ((serves i ∧ ∃ e, Info.fromFile cwd fs path = .err e) ∧ i.save cwd fs path i.json.length = (.ok (), g))
  | ⟨[.gaveUp i], g⟩ => (serves i ∧ ∃ e, Info.fromFile cwd fs path = .err e) ∧ ∃ p, p ≤ i.json.length ∧ g = (i.save cwd fs path p).2
  | ⟨[.dead], g⟩ => g = fs ∧ (Info.fromFile cwd fs path = .panic ∨
      ∃ i, (serves i ∧ ∃ e, Info.fromFile cwd fs path = .err e) ∧ ∀ n, (i.save cwd fs path n).1 = .panic)
  | _ => False

theorem fromFile_no_hang (cwd : Loc) (fs : FS) (path : Bytes) : Info.fromFile cwd fs path ≠ .hang := by
  unfold Info.fromFile
  split
  · simp
  · split <;> simp

theorem set_set_fs (fs : FS) (l : Loc) (a b : Node) : (fs.set l a).set l b = fs.set l b := by
  funext x
  unfold FS.set
  split <;> rfl

theorem pwrite_next (J : Bytes) (p n : Nat) (h : p + n ≤ J.length) : pwrite (J.take p) p ((J.drop p).take n) = J.take (p + n) := by
  unfold pwrite
  split
  · rename_i e
    have hn : n = 0 := by
      have := congrArg List.length e
      simp at this
      omega
    rw [hn]; rfl
  · have h1 : (J.take p).length = p := by simp; omega
    rw [List.take_of_length_le (l := J.take p) (by omega), h1, List.drop_eq_nil_of_le (as := J.take p) (by omega), Nat.sub_self, List.take_add]
    simp

theorem solo_step {cwd : Loc} {path : Bytes} {serves : Info → Prop} {fs : FS} {R S : Race} (h : Solo cwd path serves fs R)
    (hs : RStep cwd path serves R S) : Solo cwd path serves fs S := by
  obtain ⟨acts, g⟩ := R
  have hone : ∃ a, acts = [a] := by
    match acts with
    | [a] => exact ⟨a, rfl⟩
    | [] => exact h.elim
    | a :: _ :: _ => cases a <;> exact h.elim
  obtain ⟨a, rfl⟩ := hone
  have hk : ∀ {k : Nat} {b : Collector}, [a][k]? = some b → k = 0 ∧ a = b := by
    intro k b hb
    cases k with
    | zero => exact ⟨rfl, Option.some.inj hb⟩
    | succ k => cases hb
  cases hs with
  | look k h0 =>
    obtain ⟨rfl, rfl⟩ := hk h0
    have hg : g = fs := h
    subst hg
    show Solo cwd path serves g ⟨[_], g⟩
    cases hf : Info.fromFile cwd g path with
    | ok j => exact .inl ⟨hf, rfl⟩
    | err e => exact ⟨rfl, e, hf⟩
    | panic => exact ⟨rfl, .inl hf⟩
    | hang => exact absurd hf (fromFile_no_hang cwd g path)
  | refused k h0 =>
    obtain ⟨rfl, rfl⟩ := hk h0
    exact h.1
  | served k j h0 hj =>
    obtain ⟨rfl, rfl⟩ := hk h0
    exact ⟨h.1, hj, h.2⟩
  | createFails k j h0 ho =>
    obtain ⟨rfl, rfl⟩ := hk h0
    obtain ⟨rfl, h1⟩ := h
    refine ⟨rfl, .inr ⟨j, h1, fun n => ?_⟩⟩
    unfold Info.save
    split
    · rename_i l fs' e
      exact absurd e (ho _)
    · rfl
  | create k j l fs' h0 ho =>
    obtain ⟨rfl, rfl⟩ := hk h0
    obtain ⟨rfl, h1⟩ := h
    refine ⟨h1, Nat.zero_le _, ?_, fs', ho⟩
    unfold Info.save
    simp only at ho
    rw [ho]
    rfl
  | write k n j l p h0 hn =>
    obtain ⟨rfl, rfl⟩ := hk h0
    obtain ⟨h1, hp, hg, fs', ho⟩ := h
    refine ⟨h1, hn, ?_, fs', ho⟩
    rw [Info.save, ho] at hg ⊢
    simp only at hg ⊢
    rw [hg, writeAt_file (c := j.json.take p) _ _ (by simp [FS.set]), set_set_fs, pwrite_next _ _ _ hn]
  | finish k j l h0 =>
    obtain ⟨rfl, rfl⟩ := hk h0
    obtain ⟨h1, hp, hg, fs', ho⟩ := h
    refine .inr ⟨h1, ?_⟩
    rw [Info.save, ho] at hg ⊢
    simp only at hg ⊢
    rw [if_neg (by omega), hg]
  | fails k j l p h0 =>
    obtain ⟨rfl, rfl⟩ := hk h0
    obtain ⟨h1, hp, hg, -⟩ := h
    exact ⟨h1, p, hp, hg⟩

/-- C93: an actor that is alone does what `collect_info` (Model/Cache) does: it takes what the file holds, or else what a peer delivers, and
writes that. -/
theorem C93_alone {cwd : Loc} {path : Bytes} {serves : Info → Prop} {fs : FS} {S : Race} (h : RSteps cwd path serves ⟨[.idle], fs⟩ S) :
    Solo cwd path serves fs S := by
  induction h with
  | refl => exact rfl
  | tail h1 h2 ih => exact solo_step ih h2

/-! ### Several actors, one metadata -/

/-- C93, for peers that agree: whatever the actors do and in whatever order, no actor ends up with anything but the metadata all peers serve, nor does anybody
reading the file at any moment; and once nobody is writing and no write has failed, the file is there and complete if one of the actors has got
metadata, and reading it does not crash. Missing: actors and readers that come while somebody is writing may crash (`C93_refuted_crash`), and peers that
do not agree (`C93_refuted_mixed`, `C93_refuted_third`). -/
theorem C93_agree_partial {cwd : Loc} {infoHash : Bytes} {i : Info} {fs : FS} {n : Nat} {S : Race} (hh : 2 < infoHash.length) (hi : Typed i)
    (hd : fs (cwd ++ [b!"downloads"]) = some .dir)
    (hf : fs (cacheLoc cwd infoHash) = none ∨ fs (cacheLoc cwd infoHash) = some (.file i.json))
    (h : RSteps cwd (cachePath infoHash) (· = i) ⟨List.replicate n .idle, fs⟩ S) :
    (∀ j, .done j ∈ S.actors ∨ .gaveUp j ∈ S.actors → j = i) ∧
    (∀ j, Info.fromFile cwd S.fs (cachePath infoHash) = .ok j → j = i) ∧
    ((∀ j l p, .saving j l p ∉ S.actors) → (∀ j, .gaveUp j ∉ S.actors) →
      ((∃ j, .done j ∈ S.actors) → S.fs (cacheLoc cwd infoHash) = some (.file i.json)) ∧
      (S.fs (cacheLoc cwd infoHash) = none ∨ S.fs (cacheLoc cwd infoHash) = some (.file i.json)) ∧
      Info.fromFile cwd S.fs (cachePath infoHash) ≠ .panic) := by
  have hidle : ∀ (k : Nat) (a : Collector), (List.replicate n Collector.idle)[k]? = some a → a = .idle := by
    intro k a ha
    rw [List.getElem?_replicate] at ha
    split at ha
    · exact (Option.some.inj ha).symm
    · cases ha
  have h0 : Together cwd infoHash i ⟨List.replicate n .idle, fs⟩ := by
    refine ⟨hd, hf.imp id (fun e => ⟨_, e, near_refl _⟩), fun k a ha => by rw [hidle k a ha]; trivial, ?_⟩
    rcases hf with e | e
    · exact .inl e
    · exact .inr (.inl e)
  have hu : Unsaved cwd infoHash ⟨List.replicate n .idle, fs⟩ := fun _ k a ha => by rw [hidle k a ha]; exact id
  have hT := together_steps hh hi h0 h
  have hU := unsaved_steps hh hi h0 hu h
  refine ⟨?_, fun j hj => fromFile_near hh hi hT.dir hT.file hj, ?_⟩
  · rintro j (hj | hj)
    · obtain ⟨k, hk⟩ := List.getElem?_of_mem hj
      exact hT.actors _ _ hk
    · obtain ⟨k, hk⟩ := List.getElem?_of_mem hj
      exact hT.actors _ _ hk
  · intro h1 h2
    have h3 : S.fs (cacheLoc cwd infoHash) = none ∨ S.fs (cacheLoc cwd infoHash) = some (.file i.json) := by
      rcases hT.owner with e | e | ⟨k, p, c, hk, -⟩ | ⟨k, hk⟩
      · exact .inl e
      · exact .inr e
      · exact absurd (List.mem_of_getElem? hk) (h1 _ _ _)
      · exact absurd (List.mem_of_getElem? hk) (h2 _)
    refine ⟨?_, h3, ?_⟩
    · rintro ⟨j, hj⟩
      obtain ⟨k, hk⟩ := List.getElem?_of_mem hj
      rcases h3 with e | e
      · exact absurd trivial (hU e _ _ hk)
      · exact e
    · rw [Info.fromFile, readToString_cache hh hT.dir, readFile]
      rcases h3 with e | e
      · rw [e]; simp
      · rw [e]
        simp only [Option.bind_some]
        rw [if_pos (Info.json_utf8 hi)]
        simp only []
        rw [Info.fromJson_json (typed_sized hi)]
        simp

/-! ### Runs that go wrong -/

/-- A disk with the directory and without the file. -/
structure FreshCache (cwd : Loc) (infoHash : Bytes) (fs : FS) : Prop where
  hash : 2 < infoHash.length
  dir : fs (cwd ++ [b!"downloads"]) = some .dir
  file : fs (cacheLoc cwd infoHash) = none

theorem fresh_asks {cwd : Loc} {infoHash : Bytes} {fs : FS} (h : FreshCache cwd infoHash fs) :
    Collector.looked (Info.fromFile cwd fs (cachePath infoHash)) = .asking := by
  rw [Info.fromFile, readToString_cache h.hash h.dir, readFile, h.file]
  rfl

theorem fresh_open {cwd : Loc} {infoHash : Bytes} {fs : FS} (h : FreshCache cwd infoHash fs) :
    fs.openCreate cwd (PathBuf.parse (cachePath infoHash)) =
      .ok (cacheLoc cwd infoHash, fs.set (cacheLoc cwd infoHash) (.file [])) := by
  rw [openCreate_cache h.hash h.dir, h.file]

/-- The disk with the file as given. -/
theorem fresh_set_dir {cwd : Loc} {infoHash : Bytes} {fs : FS} (h : FreshCache cwd infoHash fs) (c : Bytes) :
    (fs.set (cacheLoc cwd infoHash) (.file c)) (cwd ++ [b!"downloads"]) = some .dir := by
  rw [FS.set, if_neg (cacheLoc_ne_dir cwd infoHash)]
  exact h.dir

theorem set_get_fs (fs : FS) (l : Loc) (a : Node) : (fs.set l a) l = some a := by simp [FS.set]

/-- Two actors up to the moment when both have metadata. -/
theorem both_got {cwd : Loc} {infoHash : Bytes} {fs : FS} (h : FreshCache cwd infoHash fs) {serves : Info → Prop} {i j : Info} (hi : serves i) (hj : serves j) :
    RSteps cwd (cachePath infoHash) serves ⟨[.idle, .idle], fs⟩ ⟨[.got i, .got j], fs⟩ := by
  have s1 := RStep.look (cwd := cwd) (path := cachePath infoHash) (serves := serves) ⟨[.idle, .idle], fs⟩ 0 rfl
  rw [fresh_asks h] at s1
  have s2 := RStep.look (cwd := cwd) (path := cachePath infoHash) (serves := serves) ⟨[.asking, .idle], fs⟩ 1 rfl
  rw [fresh_asks h] at s2
  exact ((((RSteps.refl _).tail s1).tail s2).tail (.served ⟨[.asking, .asking], fs⟩ 0 i rfl hi)).tail (.served ⟨[.got i, .asking], fs⟩ 1 j rfl hj)

/-- C93 is refuted: for any metadata, if the second actor looks at the file right after the first has made it, it dies, and so does anyone else who starts the
torrent then. -/
theorem C93_refuted_crash {cwd : Loc} {infoHash : Bytes} {fs : FS} (h : FreshCache cwd infoHash fs) (serves : Info → Prop) (i : Info) (hi : serves i) :
    ∃ S, RSteps cwd (cachePath infoHash) serves ⟨[.idle, .idle], fs⟩ S ∧ S.actors = [.saving i (cacheLoc cwd infoHash) 0, .dead] ∧
      ∀ (m : Build) dial f peerId room,
        (collectInfo m cwd S.fs dial f peerId infoHash room : Res Unit (Option Info) × FS) = (.panic, S.fs) := by
  have s1 := RStep.look (cwd := cwd) (path := cachePath infoHash) (serves := serves) ⟨[.idle, .idle], fs⟩ 0 rfl
  rw [fresh_asks h] at s1
  have s3 := RStep.create (cwd := cwd) (path := cachePath infoHash) (serves := serves) ⟨[.got i, .idle], fs⟩ 0 i _ _ rfl (fresh_open h)
  rw [set_set_fs] at s3
  have s4 := RStep.look (cwd := cwd) (path := cachePath infoHash) (serves := serves)
    ⟨[.saving i (cacheLoc cwd infoHash) 0, .idle], fs.set (cacheLoc cwd infoHash) (.file [])⟩ 1 rfl
  have hl : Collector.looked (Info.fromFile cwd (fs.set (cacheLoc cwd infoHash) (.file [])) (cachePath infoHash)) = .dead := by
    rw [Info.fromFile, readToString_cache h.hash (fresh_set_dir h _), readFile, set_get_fs]
    rfl
  rw [hl] at s4
  refine ⟨_, ((((RSteps.refl _).tail s1).tail (.served ⟨[.asking, .idle], fs⟩ 0 i rfl hi)).tail s3).tail s4, rfl, ?_⟩
  intro m dial f peerId room
  refine (C92_start m cwd _ dial f peerId infoHash [] room h.hash (fresh_set_dir h _) (set_get_fs ..)).2.1 ?_ ?_
  · exact (text_iff _).mp rfl
  · intro j hj
    have := (C92_exact _ _).mpr hj
    cases this

theorem race_write {cwd : Loc} {path : Bytes} {serves : Info → Prop} {fs : FS} {l : Loc} {c c' : Bytes} (acts : List Collector) (k n : Nat) (i : Info)
    (p : Nat) {q : Nat} (hk : acts[k]? = some (.saving i l p)) (hq : p + n = q) (hn : q ≤ i.json.length)
    (hc : pwrite c p ((i.json.drop p).take n) = c') :
    RStep cwd path serves ⟨acts, fs.set l (.file c)⟩ ⟨acts.set k (.saving i l q), fs.set l (.file c')⟩ := by
  subst hq
  have := RStep.write (cwd := cwd) (path := path) (serves := serves) ⟨acts, fs.set l (.file c)⟩ k n i l p hk hn
  rwa [writeAt_file _ _ (set_get_fs ..), set_set_fs, hc] at this

/-- What two writers may leave behind: the beginning of the one document, the end of the other, and what is left of the first if it is longer. -/
theorem C93_mixed {cwd : Loc} {infoHash : Bytes} {fs : FS} (h : FreshCache cwd infoHash fs) (serves : Info → Prop) (i j : Info) (hi : serves i) (hj : serves j)
    (p : Nat) (hpi : p ≤ i.json.length) (hpj : p < j.json.length) :
    RSteps cwd (cachePath infoHash) serves ⟨[.idle, .idle], fs⟩
      ⟨[.done i, .done j], fs.set (cacheLoc cwd infoHash) (.file (i.json.take p ++ j.json.drop p ++ i.json.drop j.json.length))⟩ := by
  have s1 := RStep.create (cwd := cwd) (path := cachePath infoHash) (serves := serves) ⟨[.got i, .got j], fs⟩ 0 i _ _ rfl (fresh_open h)
  rw [set_set_fs] at s1
  have s2 := RStep.create (cwd := cwd) (path := cachePath infoHash) (serves := serves)
    ⟨[.saving i (cacheLoc cwd infoHash) 0, .got j], fs.set (cacheLoc cwd infoHash) (.file [])⟩ 1 j (cacheLoc cwd infoHash)
    (fs.set (cacheLoc cwd infoHash) (.file [])) rfl
    (by rw [openCreate_cache h.hash (fresh_set_dir h _), set_get_fs])
  rw [set_set_fs] at s2
  have s3 : RStep cwd (cachePath infoHash) serves
      ⟨[.saving i (cacheLoc cwd infoHash) 0, .saving j (cacheLoc cwd infoHash) 0], fs.set (cacheLoc cwd infoHash) (.file [])⟩
      ⟨[.saving i (cacheLoc cwd infoHash) 0, .saving j (cacheLoc cwd infoHash) p], fs.set (cacheLoc cwd infoHash) (.file (j.json.take p))⟩ :=
    race_write _ 1 p j 0 rfl (by omega) (by omega) (by
      have := pwrite_next j.json 0 p (by omega)
      rwa [Nat.zero_add, List.take_zero] at this)
  have s4 : RStep cwd (cachePath infoHash) serves
      ⟨[.saving i (cacheLoc cwd infoHash) 0, .saving j (cacheLoc cwd infoHash) p], fs.set (cacheLoc cwd infoHash) (.file (j.json.take p))⟩
      ⟨[.saving i (cacheLoc cwd infoHash) i.json.length, .saving j (cacheLoc cwd infoHash) p], fs.set (cacheLoc cwd infoHash) (.file i.json)⟩ :=
    race_write _ 0 i.json.length i 0 rfl (by omega) (by omega) (by
      rw [List.drop_zero, List.take_length, pwrite, if_neg]
      · rw [List.drop_eq_nil_of_le (by simp; omega)]; simp
      · obtain ⟨t, ht⟩ := i.json_last
        rw [ht]; simp)
  have s5 : RStep cwd (cachePath infoHash) serves
      ⟨[.saving i (cacheLoc cwd infoHash) i.json.length, .saving j (cacheLoc cwd infoHash) p], fs.set (cacheLoc cwd infoHash) (.file i.json)⟩
      ⟨[.saving i (cacheLoc cwd infoHash) i.json.length, .saving j (cacheLoc cwd infoHash) j.json.length],
        fs.set (cacheLoc cwd infoHash) (.file (i.json.take p ++ j.json.drop p ++ i.json.drop j.json.length))⟩ :=
    race_write _ 1 (j.json.length - p) j p rfl (by omega) (by omega) (by
      have e : (j.json.drop p).take (j.json.length - p) = j.json.drop p := List.take_of_length_le (by simp)
      rw [e, pwrite, if_neg, Nat.sub_eq_zero_of_le hpi, List.length_drop, show p + (j.json.length - p) = j.json.length by omega]
      · simp
      · intro e
        have := congrArg List.length e
        simp at this
        omega)
  exact (((((((both_got h hi hj).tail s1).tail s2).tail s3).tail s4).tail s5).tail (.finish ⟨_, _⟩ 0 i _ rfl)).tail (.finish ⟨_, _⟩ 1 j _ rfl)

/-- C93 is refuted: whenever two peers serve metadata whose documents differ in length, two actors can both succeed and leave a file behind that is no document;
if it is a text, the torrent can never be started again. -/
theorem C93_refuted_mixed {cwd : Loc} {infoHash : Bytes} {fs : FS} (h : FreshCache cwd infoHash fs) (serves : Info → Prop) (i j : Info) (hi : serves i)
    (hj : serves j) (ht : Typed j) (hl : j.json.length < i.json.length) :
    ∃ S c, RSteps cwd (cachePath infoHash) serves ⟨[.idle, .idle], fs⟩ S ∧ S.actors = [.done i, .done j] ∧
      S.fs (cacheLoc cwd infoHash) = some (.file c) ∧ (∀ k, ¬ Stored k c) ∧
      (Text c → ∀ (m : Build) dial f peerId room,
        (collectInfo m cwd S.fs dial f peerId infoHash room : Res Unit (Option Info) × FS) = (.panic, S.fs)) := by
  have hne : 0 < j.json.length := by
    obtain ⟨t, ht⟩ := j.json_last
    rw [ht]; simp
  have hno : ∀ k, ¬ Stored k (i.json.take 0 ++ j.json.drop 0 ++ i.json.drop j.json.length) := by
    intro k hk
    have h1 := (C92_exact _ _).mpr hk
    obtain ⟨t, ht'⟩ := i.json_last
    have h2 : i.json.drop j.json.length = t.drop j.json.length ++ [125] := by
      have hlen := congrArg List.length ht'
      simp at hlen
      rw [ht', List.drop_append_of_le_length (by omega)]
    rw [List.take_zero, List.drop_zero, List.nil_append, h2, Info.fromJson_more (typed_sized ht)] at h1
    cases h1
  refine ⟨_, _, C93_mixed h serves i j hi hj 0 (Nat.zero_le _) hne, rfl, set_get_fs .., hno, ?_⟩
  intro hx m dial f peerId room
  exact (C92_start m cwd _ dial f peerId infoHash _ room h.hash (fresh_set_dir h _) (set_get_fs ..)).2.1 hx hno

/-- Two torrents of the same size. -/
def raceInfoA : Info := { files := none, length := some 5, name := b!"aa", pieceLength := 8, pieces := [1] }
def raceInfoB : Info := { files := none, length := some 5, name := b!"bb", pieceLength := 8, pieces := [2] }
/-- And one nobody serves. -/
def raceInfoC : Info := { files := none, length := some 5, name := b!"aa", pieceLength := 8, pieces := [2] }

theorem raceInfo_mixed : Info.fromJson (raceInfoA.json.take 50 ++ raceInfoB.json.drop 50 ++ raceInfoA.json.drop raceInfoB.json.length) = some raceInfoC := by
  decide +kernel

/-- C93 is refuted: both actors succeed, and from then on the torrent is started with metadata that nobody has served. -/
theorem C93_refuted_third {cwd : Loc} {infoHash : Bytes} {fs : FS} (h : FreshCache cwd infoHash fs) :
    ∃ S, RSteps cwd (cachePath infoHash) (fun x => x = raceInfoA ∨ x = raceInfoB) ⟨[.idle, .idle], fs⟩ S ∧
      S.actors = [.done raceInfoA, .done raceInfoB] ∧ raceInfoC ≠ raceInfoA ∧ raceInfoC ≠ raceInfoB ∧
      ∀ (m : Build) dial f peerId room,
        (collectInfo m cwd S.fs dial f peerId infoHash room : Res Unit (Option Info) × FS) = (.ok (some raceInfoC), S.fs) := by
  refine ⟨_, C93_mixed h _ raceInfoA raceInfoB (.inl rfl) (.inr rfl) 50 (by decide +kernel) (by decide +kernel), rfl, by decide, by decide, ?_⟩
  intro m dial f peerId room
  exact (C92_start m cwd _ dial f peerId infoHash _ room h.hash (fresh_set_dir h _) (set_get_fs ..)).1 _ ((text_iff _).mp (by decide +kernel))
    ((C92_exact _ _).mp raceInfo_mixed)

/-! ### The hypotheses can be met -/

/-- A disk with an empty directory. -/
def freshDisk : FS := fun l => if l = [b!"home", b!"downloads"] then some .dir else none

theorem freshDisk_fresh : FreshCache [b!"home"] (List.replicate 20 7) freshDisk :=
  ⟨by decide, rfl, by decide +kernel⟩

theorem raceInfoA_typed : Typed raceInfoA := by
  refine ⟨?_, ?_, ?_, ?_⟩ <;> simp [raceInfoA]
  decide

/-- Non-vacuity of `C93_agree_partial`: two actors write the same document, one behind the other. -/
example : ∃ S, RSteps [b!"home"] (cachePath (List.replicate 20 7)) (· = raceInfoA) ⟨List.replicate 2 .idle, freshDisk⟩ S ∧
    S.actors = [.done raceInfoA, .done raceInfoA] ∧
    S.fs (cacheLoc [b!"home"] (List.replicate 20 7)) = some (.file raceInfoA.json) := by
  have hrun := C93_mixed freshDisk_fresh (· = raceInfoA) raceInfoA raceInfoA rfl rfl 9 (by decide +kernel) (by decide +kernel)
  have hd : (.done raceInfoA : Collector) ∈ ([.done raceInfoA, .done raceInfoA] : List Collector) := by simp
  have := C93_agree_partial (n := 2) freshDisk_fresh.hash raceInfoA_typed freshDisk_fresh.dir (.inl freshDisk_fresh.file) hrun
  exact ⟨_, hrun, rfl, (this.2.2 (by simp) (by simp)).1 ⟨_, hd⟩⟩

/-- Non-vacuity of `C93_refuted_mixed`: the one document is longer, and what is left is a text. -/
example : Typed raceInfoA ∧ raceInfoA.json.length < ({ raceInfoA with name := b!"aaa" } : Info).json.length ∧
    Text (raceInfoA.json ++ ({ raceInfoA with name := b!"aaa" } : Info).json.drop raceInfoA.json.length) :=
  ⟨raceInfoA_typed, by decide +kernel, (text_iff _).mp (by decide +kernel)⟩

end RustBit
