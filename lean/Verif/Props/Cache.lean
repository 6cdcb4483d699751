import Verif.Proofs.Cache
import Verif.Props.Tracker
import Verif.Props.Writer

/-
C63, C64: the metadata cache. C68: who can change it.
-/

namespace RustBit
open Spec

/-! ### C63 -/

/-- C63: whatever the metadata, the path and the file system, if `save` completes then `from_file` returns equal metadata. -/
theorem C63_round_trip (i : Info) (hi : Typed i) (cwd : Loc) (fs fs' : FS) (path : Bytes) (room : Nat)
    (hs : i.save cwd fs path room = (.ok (), fs')) : Info.fromFile cwd fs' path = .ok i := by
  have h := fromFile_save hi hs (by simp)
  have hk : i.json.length ≤ room := by
    unfold Info.save at hs
    split at hs
    · simp only [Prod.mk.injEq] at hs
      have h1 := hs.1
      split at h1
      · cases h1
      · omega
    · cases hs
  rw [h, if_pos hk]

/-- Metadata with every kind of character that needs care: quotes, backslash, control characters, non-ASCII. -/
def cacheInfo : Info where
  files := some [⟨[b!"a\"b\\c", [1, 8, 9, 10, 12, 13, 31, 127]], 2 ^ 64 - 1⟩, ⟨[], 0⟩]
  length := none
  name := b!"naïve 日本 😀 /</script>"
  pieceLength := 262144
  pieces := [0, 255, 34, 92]

theorem cacheInfo_typed : Typed cacheInfo := by
  refine ⟨by decide +kernel, by decide, (by intro n h; cases h), ?_⟩
  intro fs h f hf
  simp only [cacheInfo, Option.some.injEq] at h
  subst h
  simp only [List.mem_cons, List.not_mem_nil, or_false] at hf
  rcases hf with rfl | rfl
  · refine ⟨by decide, ?_⟩
    intro p hp
    simp only [List.mem_cons, List.not_mem_nil, or_false] at hp
    rcases hp with rfl | rfl <;> decide +kernel
  · exact ⟨by decide, by simp⟩

/-- A file system with the directory for the cache, and nothing in it. -/
def cacheFs : FS := fun l => if l = [b!"home"] ∨ l = [b!"home", b!"downloads"] then some .dir else none

/-- Non-vacuity: `save` does complete. -/
example : (cacheInfo.save [b!"home"] cacheFs b!"./downloads/x" 1000).1 = .ok () := by decide +kernel

/-! ### C64 -/

/-- What a start finds after an earlier process stopped during `save`, for every point at which it may have stopped. -/
theorem C64_after_crash (i : Info) (hi : Typed i) (cwd : Loc) (fs fs' : FS) (path : Bytes) (k : Nat) (r : Res InfoError Unit)
    (hs : i.save cwd fs path k = (r, fs')) (hr : r ≠ .panic) :
    Info.fromFile cwd fs' path =
      if i.json.length ≤ k then .ok i else if validUtf8 (i.json.take k) then .panic else .err (.noInfoFile path) :=
  fromFile_save hi hs hr

/-- The state left behind by `save` to the cache of a torrent that got as far as `k` bytes. -/
structure Crashed (i : Info) (cwd : Loc) (infoHash : Bytes) (k : Nat) (fs' : FS) : Prop where
  typed : Typed i
  hash : 2 < infoHash.length
  saved : ∃ fs r, i.save cwd fs (cachePath infoHash) k = (r, fs') ∧ r ≠ .panic

theorem crashed_downloads {i : Info} {cwd : Loc} {infoHash : Bytes} {k : Nat} {fs' : FS} (h : Crashed i cwd infoHash k fs') :
    fs' (cwd ++ [b!"downloads"]) = some .dir := by
  obtain ⟨fs, r, hs, hr⟩ := h.saved
  have hsafe := C62_safe infoHash
  obtain ⟨n1, n2, n3⟩ := hsafe.2.2.2 h.hash
  have hp := cachePath_parse (hsafe.2.1 _ (by decide)) n1 n2
  unfold Info.save at hs
  rw [hp] at hs
  split at hs
  · rename_i l fs1 ho
    simp only [Prod.mk.injEq] at hs
    rw [← hs.2]
    unfold FS.openCreate at ho
    split at ho
    · cases ho
    · simp only [List.getLast?_cons_cons, List.getLast?_singleton, List.dropLast_cons_cons, List.dropLast_singleton, FS.walk] at ho
      rw [if_neg (by decide)] at ho
      have e : (PathBuf.mk false [b!"downloads", percentEncode infoHash] false).base cwd = cwd := rfl
      rw [e] at ho
      cases hd : fs (cwd ++ [b!"downloads"]) with
      | none => rw [hd] at ho; cases ho
      | some n =>
        cases n with
        | file c => rw [hd] at ho; cases ho
        | dir =>
          rw [hd] at ho
          simp only [Res.bind_ok] at ho
          rw [if_neg n3] at ho
          have hne : cwd ++ [b!"downloads"] ≠ l := by
            have hl : l = cwd ++ [b!"downloads"] ++ [percentEncode infoHash] := by
              split at ho
              · cases ho
              · simp only [Res.ok.injEq, Prod.mk.injEq] at ho; exact ho.1.symm
              · simp only [Res.ok.injEq, Prod.mk.injEq] at ho; exact ho.1.symm
            rw [hl]
            intro e
            have := congrArg List.length e
            simp at this
          have hf : fs1 (cwd ++ [b!"downloads"]) = some .dir := by
            split at ho
            · cases ho
            · simp only [Res.ok.injEq, Prod.mk.injEq] at ho; rw [← ho.2]; exact hd
            · simp only [Res.ok.injEq, Prod.mk.injEq] at ho
              rw [← ho.2, FS.set, if_neg (by intro e; exact hne (e.trans ho.1))]
              exact hd
          rw [FS.set, if_neg hne]
          exact hf
  · simp only [Prod.mk.injEq] at hs
    exact absurd hs.1.symm hr

/-- C64 refuted, and for every metadata: if the process stops when part of the document is written (the file may
still be empty, `k = 0`), unless exactly inside a multi-byte character, then every later start panics in `collect_info`, whatever the peers do, and
leaves the file as it is, so this goes on forever. -/
theorem C64_refuted {ε : Type} (i : Info) (cwd : Loc) (infoHash : Bytes) (k : Nat) (fs' : FS) (h : Crashed i cwd infoHash k fs')
    (hk : k < i.json.length) (hv : validUtf8 (i.json.take k) = true) (m : Build) (dial : Dial) (f : Nat) (peerId : Bytes) (room : Nat) :
    (collectInfo m cwd fs' dial f peerId infoHash room : Res ε (Option Info) × FS) = (.panic, fs') := by
  obtain ⟨fs, r, hs, hr⟩ := h.saved
  rw [collectInfo_exists (crashed_downloads h), C64_after_crash i h.typed cwd fs fs' _ k r hs hr, if_neg (by omega), if_pos hv]

/-- Non-vacuity: the process stops right after the file has been created. -/
theorem crashed_sample : Crashed cacheInfo [b!"home"] (List.replicate 20 7) 0
    (cacheInfo.save [b!"home"] cacheFs (cachePath (List.replicate 20 7)) 0).2 :=
  ⟨cacheInfo_typed, by decide, cacheFs, .err (.noInfoFile (cachePath (List.replicate 20 7))), by
    refine ⟨Prod.ext ?_ rfl, by simp⟩
    decide +kernel⟩

example : (0 : Nat) < cacheInfo.json.length ∧ validUtf8 (cacheInfo.json.take 0) = true := by decide +kernel

/-- C64: harmless are a stop after the last byte (the metadata is re-read) and a stop inside a multi-byte character (the metadata is
fetched again, as if there were no cache). Missing: all other points (refuted above). -/
theorem C64_harmless_partial {ε : Type} (i : Info) (cwd : Loc) (infoHash : Bytes) (k : Nat) (fs' : FS) (h : Crashed i cwd infoHash k fs')
    (m : Build) (dial : Dial) (f : Nat) (peerId : Bytes) (room : Nat) :
    (i.json.length ≤ k → (collectInfo m cwd fs' dial f peerId infoHash room : Res ε (Option Info) × FS) = (.ok (some i), fs')) ∧
    (k < i.json.length → validUtf8 (i.json.take k) = false → ∀ j, getInfo m dial f peerId infoHash = .ok j →
      (j.save cwd fs' (cachePath infoHash) room).1 ≠ .panic →
      (collectInfo m cwd fs' dial f peerId infoHash room : Res ε (Option Info) × FS) =
        (.ok (some j), (j.save cwd fs' (cachePath infoHash) room).2)) := by
  obtain ⟨fs, r, hs, hr⟩ := h.saved
  rw [collectInfo_exists (crashed_downloads h), C64_after_crash i h.typed cwd fs fs' _ k r hs hr]
  refine ⟨fun hk => by rw [if_pos hk], fun hk hv j hj hsave => ?_⟩
  rw [if_neg (by omega), if_neg (by rw [hv]; simp)]
  simp only [hj]
  have hh : (j.save cwd fs' (cachePath infoHash) room).1 ≠ .hang := by
    unfold Info.save
    split
    · simp only []; split <;> simp
    · simp
  generalize j.save cwd fs' (cachePath infoHash) room = x at *
  obtain ⟨x1, x2⟩ := x
  cases x1 with
  | ok u => rfl
  | err e => rfl
  | panic => exact absurd rfl hsave
  | hang => exact absurd rfl hh

/-- Non-vacuity: there are points inside a character. -/
example : (136 : Nat) < cacheInfo.json.length ∧ validUtf8 (cacheInfo.json.take 136) = false := by decide +kernel

/-! ### C68 -/

/-- Where the metadata of a torrent is cached. -/
def cacheLoc (cwd : Loc) (infoHash : Bytes) : Loc := cwd ++ [b!"downloads", percentEncode infoHash]

theorem cache_plain {infoHash : Bytes} (h : 2 < infoHash.length) : Plain [b!"downloads", percentEncode infoHash] := by
  have hs := C62_safe infoHash
  obtain ⟨n1, n2, n3⟩ := hs.2.2.2 h
  refine ⟨by simp, ?_⟩
  intro c hc
  simp only [List.mem_cons, List.not_mem_nil, or_false] at hc
  rcases hc with rfl | rfl
  · decide
  · exact ⟨n1, n2, n3, hs.2.1 _ (by decide), hs.2.2.1⟩

theorem readToString_cache {fs : FS} {cwd : Loc} {infoHash : Bytes} (h : 2 < infoHash.length)
    (hd : fs (cwd ++ [b!"downloads"]) = some .dir) :
    fs.readToString cwd (cachePath infoHash) =
      (readFile fs (cacheLoc cwd infoHash)).bind (fun c => if validUtf8 c then some c else none) := by
  have hsafe := C62_safe infoHash
  obtain ⟨n1, n2, n3⟩ := hsafe.2.2.2 h
  have hp := cachePath_parse (hsafe.2.1 _ (by decide)) n1 n2
  have hn : hasNul [b!"downloads", percentEncode infoHash] = false := by
    have : (0 : UInt8) ∉ percentEncode infoHash := hsafe.2.2.1
    simp [hasNul, this]
  unfold FS.readToString
  simp only [hp, hn, Bool.or_self, Bool.false_eq_true, if_false, List.getLast?_cons_cons, List.getLast?_singleton, List.dropLast_cons_cons,
    List.dropLast_singleton, FS.walk, PathBuf.base]
  rw [if_neg (by decide), hd]
  simp only [if_neg n3, readFile, cacheLoc]
  have e : cwd ++ [b!"downloads"] ++ [percentEncode infoHash] = cwd ++ [b!"downloads", percentEncode infoHash] := by simp
  rw [e]
  cases fs (cwd ++ [b!"downloads", percentEncode infoHash]) with
  | none => rfl
  | some n => cases n <;> rfl

/-- C68 refuted, for every victim and every metadata: the metadata of a torrent may list the cache file of another
torrent among its files. Once that file is written, the other torrent is started with the metadata it contains, without contacting a
peer and without any check against the info hash. -/
theorem C68_refuted {ε : Type} (m : Build) (cwd : Loc) (fs : FS) (victim : Bytes) (hv : 2 < victim.length) (evil : Info) (he : Typed evil)
    (hl : evil.json.length < 2 ^ 64)
    (h1 : ∀ c, fs (cwd ++ [b!"downloads"]) ≠ some (.file c)) (h2 : fs (cacheLoc cwd victim) ≠ some .dir)
    (h3 : ∀ c, fs (cacheLoc cwd victim) = some (.file c) → c.length ≤ evil.json.length) :
    ∃ fs', (writePiece m cwd fs evil.json 0 [⟨[b!"downloads", percentEncode victim], evil.json.length⟩] evil.json.length : Res ε Unit × FS)
        = (.ok (), fs') ∧
      ∀ m' dial f peerId room, (collectInfo m' cwd fs' dial f peerId victim room : Res ε (Option Info) × FS) = (.ok (some evil), fs') := by
  have hpos : 0 < evil.json.length := by
    rw [Info.json, Info.toJson, Json.print]; simp
  have hw : (getFileWriters m [⟨[b!"downloads", percentEncode victim], evil.json.length⟩] evil.json 0 evil.json.length : Res ε _) =
      .ok [⟨[b!"downloads", percentEncode victim], 0, evil.json.length, evil.json⟩] := by
    have hs : (slice evil.json 0 evil.json.length : Res ε Bytes) = .ok evil.json := by
      simp [slice]
    generalize evil.json = j at hs hpos hl
    have a1 : (uadd m 0 j.length : Res ε Nat) = .ok j.length := by rw [uadd_ok (by omega)]; simp
    have s0 : ∀ a b : Nat, a ≤ b → (usub m b a : Res ε Nat) = .ok (b - a) := fun a b h => usub_ok h
    have m0 : (umul m 0 j.length : Res ε Nat) = .ok 0 := by rw [umul_ok (by omega)]; simp
    simp only [getFileWriters, FileParser.new, m0, Res.bind_ok, fileWritersLoop, FileParser.updateRightFileBoundary, a1, FileParser.isPieceInFile,
      FileParser.updateEndFileIndex, FileParser.getStartFileIndex, FileParser.getEndFileIndex, FileParser.getStartPieceIndex, FileParser.getEndPieceIndex,
      FileParser.isPieceFinished, s0 _ _ (Nat.le_refl _), Nat.sub_self, Nat.min_self, s0 0 _ (Nat.zero_le _), Nat.sub_zero, hs, hpos,
      decide_true, if_true, List.nil_append]
    simp
  have hwt := writeToFilesystem_plain (ε := ε) (cwd := cwd) (fs := fs)
    (w := ⟨[b!"downloads", percentEncode victim], 0, evil.json.length, evil.json⟩) (cache_plain hv)
    (by
      intro q c hq hne hq0
      have : q = [b!"downloads"] := by
        obtain ⟨t, ht⟩ := hq
        match q, hq0 with
        | [a], _ => simp only [List.cons_append, List.nil_append, List.cons.injEq] at ht; rw [ht.1]
        | [a, b], _ =>
          simp only [List.cons_append, List.nil_append, List.cons.injEq] at ht
          exact absurd (by rw [ht.1, ht.2.1]) hne
        | a :: b :: c :: q, _ => simp at ht
      subst this
      exact h1 c) h2
  obtain ⟨fs', e1, e2, e3, -, -⟩ := hwt
  refine ⟨fs', ?_, ?_⟩
  · rw [writePiece, hw]
    simp only [writeAllParts]
    rw [e1]
  · intro m' dial f peerId room
    have hd : fs' (cwd ++ [b!"downloads"]) = some .dir := by
      apply e3 _ (by simp) ⟨[percentEncode victim], rfl⟩
      simp
    have hcont : pwrite ((readFile fs (cwd ++ [b!"downloads", percentEncode victim])).getD []) 0 evil.json = evil.json := by
      have hle : ((readFile fs (cwd ++ [b!"downloads", percentEncode victim])).getD []).length ≤ evil.json.length := by
        unfold readFile
        cases hc : fs (cwd ++ [b!"downloads", percentEncode victim]) with
        | none => simp
        | some n =>
          cases n with
          | dir => simp
          | file c => exact h3 c hc
      unfold pwrite
      rw [if_neg (by intro e; rw [e] at hpos; simp at hpos)]
      simp [List.drop_eq_nil_of_le hle]
    rw [collectInfo_exists hd, Info.fromFile, readToString_cache hv hd]
    simp only [] at e2
    rw [hcont] at e2
    have : readFile fs' (cacheLoc cwd victim) = some evil.json := by
      rw [readFile, cacheLoc, e2]
    rw [this, Option.bind_some, if_pos (Info.json_utf8 he)]
    simp only []
    rw [Info.fromJson_json (typed_sized he)]

/-- Non-vacuity: an empty cache directory and arbitrary metadata. -/
example : ∃ fs', (writePiece .debug [b!"home"] cacheFs cacheInfo.json 0
    [⟨[b!"downloads", percentEncode (List.replicate 20 7)], cacheInfo.json.length⟩] cacheInfo.json.length : Res Unit Unit × FS) = (.ok (), fs') ∧
    ∀ m' dial f peerId room, (collectInfo m' [b!"home"] fs' dial f peerId (List.replicate 20 7) room : Res Unit (Option Info) × FS) =
      (.ok (some cacheInfo), fs') := by
  refine C68_refuted .debug [b!"home"] cacheFs (List.replicate 20 7) (by decide) cacheInfo cacheInfo_typed (by decide +kernel) ?_ ?_ ?_
  · intro c
    have : cacheFs ([b!"home"] ++ [b!"downloads"]) = some .dir := by decide +kernel
    rw [this]; simp
  · have : cacheFs (cacheLoc [b!"home"] (List.replicate 20 7)) = none := by decide +kernel
    rw [this]; simp
  · intro c h
    have : cacheFs (cacheLoc [b!"home"] (List.replicate 20 7)) = none := by decide +kernel
    rw [this] at h; cases h

/-- C68: writing the pieces of a torrent none of whose files lies at or below the cache file of another leaves that one
as it is. Missing: layouts that do list it (refuted above) or that are not made of ordinary names. -/
theorem C68_pieces_partial {ε : Type} (m : Build) (cwd : Loc) (fs fs' : FS) (files : List File) (d : Bytes) (pl i : Nat) (victim : Bytes)
    (h : Placeable cwd fs files d pl) (hi : i < pieceCount d.length pl)
    (hf : ∀ f ∈ files, ¬ [b!"downloads", percentEncode victim] <+: f.path)
    (hw : (writePiece m cwd fs (piece d pl i) i files pl : Res ε Unit × FS) = (.ok (), fs')) :
    fs' (cacheLoc cwd victim) = fs (cacheLoc cwd victim) := by
  obtain ⟨ps, hps⟩ := pieceParts (ε := ε) (m := m) h.length h.small h.pieceLength hi
  obtain ⟨fs1, e1, -, -, -, k1, -⟩ := write_clear (ε := ε) ps h.plain h.separate h.clear hps.right
  rw [writePiece, hps.writers] at hw
  simp only [] at hw
  rw [e1] at hw
  simp only [Prod.mk.injEq, true_and] at hw
  rw [← hw]
  apply k1
  intro f hm q hq hpre e
  have : q = [b!"downloads", percentEncode victim] := (List.append_cancel_left e).symm
  rw [this] at hpre
  exact hf f hm hpre

/-- C68: caching the metadata of one torrent does not change the cache of another. -/
theorem C68_save (i : Info) (cwd : Loc) (fs fs' : FS) (a b : Bytes) (ha : 2 < a.length) (hab : a ≠ b) (room : Nat)
    (r : Res InfoError Unit) (hs : i.save cwd fs (cachePath a) room = (r, fs')) : fs' (cacheLoc cwd b) = fs (cacheLoc cwd b) := by
  have hsafe := C62_safe a
  obtain ⟨n1, n2, n3⟩ := hsafe.2.2.2 ha
  have hp := cachePath_parse (hsafe.2.1 _ (by decide)) n1 n2
  have hne : cacheLoc cwd b ≠ cacheLoc cwd a := by
    intro e
    have := List.append_cancel_left e
    simp only [List.cons.injEq, and_true, true_and] at this
    exact hab (C62_injective _ _ this.symm)
  unfold Info.save at hs
  rw [hp] at hs
  split at hs
  · rename_i l fs1 ho
    simp only [Prod.mk.injEq] at hs
    unfold FS.openCreate at ho
    split at ho
    · cases ho
    · simp only [List.getLast?_cons_cons, List.getLast?_singleton, List.dropLast_cons_cons, List.dropLast_singleton, FS.walk, PathBuf.base] at ho
      rw [if_neg (by decide)] at ho
      cases hd : fs (cwd ++ [b!"downloads"]) with
      | none =>
        simp only [Bool.false_eq_true, if_false] at ho
        rw [hd] at ho; cases ho
      | some n =>
        cases n with
        | file c =>
          simp only [Bool.false_eq_true, if_false] at ho
          rw [hd] at ho; cases ho
        | dir =>
          simp only [Bool.false_eq_true, if_false] at ho
          rw [hd] at ho
          simp only [Res.bind_ok] at ho
          rw [if_neg n3] at ho
          have e : cwd ++ [b!"downloads"] ++ [percentEncode a] = cacheLoc cwd a := by simp [cacheLoc]
          rw [e] at ho
          rw [← hs.2]
          split at ho
          · cases ho
          · simp only [Res.ok.injEq, Prod.mk.injEq] at ho
            rw [← ho.1, ← ho.2, FS.set, if_neg hne]
          · simp only [Res.ok.injEq, Prod.mk.injEq] at ho
            rw [← ho.1, ← ho.2, set_set, FS.set, if_neg hne]
  · simp only [Prod.mk.injEq] at hs
    rw [hs.2]

/-- Non-vacuity: two different hashes. -/
example : cacheInfo.save [b!"home"] cacheFs (cachePath (List.replicate 20 7)) 1000 =
    (.ok (), (cacheInfo.save [b!"home"] cacheFs (cachePath (List.replicate 20 7)) 1000).2) ∧ List.replicate 20 7 ≠ List.replicate 20 (8 : UInt8) :=
  ⟨Prod.ext (by decide +kernel) rfl, by decide⟩

end RustBit
