/-
Property C92: what a cache file may look like.
-/
import Verif.Proofs.JsonText
import Verif.Props.Cache
import Verif.Props.Text

namespace RustBit
open Spec

/-- C92: exactly the JSON documents (RFC 8259) of metadata are read, and as the metadata they stand for. -/
theorem C92_exact (s : Bytes) (i : Info) : Info.fromJson s = some i ↔ Stored i s := fromJson_iff s i

/-- C92: a document stands for one value only. -/
theorem C92_unique (s : Bytes) (i j : Info) (hi : Stored i s) (hj : Stored j s) : i = j := by
  have h1 := (C92_exact s i).mpr hi
  rw [(C92_exact s j).mpr hj] at h1
  exact (Option.some.inj h1).symm

/-- The file at the path is a regular one with these contents. -/
def FileHas (cwd : Loc) (fs : FS) (path c : Bytes) : Prop :=
  hasNul (PathBuf.parse path).comps = false ∧ (PathBuf.parse path).trailing = false ∧
  ∃ l name, fs.walk ((PathBuf.parse path).base cwd) (PathBuf.parse path).comps.dropLast = .ok l ∧
    (PathBuf.parse path).comps.getLast? = some name ∧ name ≠ b!".." ∧ fs (l ++ [name]) = some (.file c)

theorem readToString_iff (cwd : Loc) (fs : FS) (path c : Bytes) : fs.readToString cwd path = some c ↔ FileHas cwd fs path c ∧ Text c := by
  unfold FS.readToString FileHas
  rw [← text_iff]
  constructor
  · intro h
    simp only [] at h
    split at h
    · cases h
    · rename_i h0
      simp only [Bool.or_eq_true, not_or, Bool.not_eq_true] at h0
      split at h
      · rename_i l name hl hn
        split at h
        · cases h
        · rename_i hname
          split at h
          · rename_i c' hc
            split at h
            · rename_i hv
              cases h
              exact ⟨⟨h0.1, h0.2, l, name, hl, hn, hname, hc⟩, hv⟩
            · cases h
          · cases h
      · cases h
  · rintro ⟨⟨h1, h2, l, name, h3, h4, h5, h6⟩, h7⟩
    simp only [h1, h2, Bool.or_self, Bool.false_eq_true, if_false, h3, h4, if_neg h5, h6, h7, if_true]

/-- C92: reading the file succeeds exactly if it holds a text that is a document of metadata. -/
theorem C92_file (cwd : Loc) (fs : FS) (path : Bytes) (i : Info) :
    Info.fromFile cwd fs path = .ok i ↔ ∃ c, FileHas cwd fs path c ∧ Text c ∧ Stored i c := by
  unfold Info.fromFile
  constructor
  · intro h
    split at h
    · cases h
    · rename_i s hs
      split at h
      · rename_i j hj
        cases h
        obtain ⟨h1, h2⟩ := (readToString_iff ..).mp hs
        exact ⟨s, h1, h2, (C92_exact ..).mp hj⟩
      · cases h
  · rintro ⟨c, h1, h2, h3⟩
    rw [(readToString_iff ..).mpr ⟨h1, h2⟩]
    simp only []
    rw [(C92_exact ..).mpr h3]

/-- C92: what is read is a value of its type, so it survives being stored again. -/
theorem C92_typed (cwd : Loc) (fs : FS) (path : Bytes) (i : Info) (h : Info.fromFile cwd fs path = .ok i) : Typed i ∧ Stored i i.json := by
  obtain ⟨c, -, ht, hs⟩ := (C92_file ..).mp h
  have := stored_typed ht hs
  exact ⟨this, (C92_exact ..).mp (Info.fromJson_json (typed_sized this))⟩

/-- C92: reading panics exactly if the file holds a text that is no document of metadata. -/
theorem C92_panics_exactly (cwd : Loc) (fs : FS) (path : Bytes) :
    Info.fromFile cwd fs path = .panic ↔ ∃ c, FileHas cwd fs path c ∧ Text c ∧ ∀ i, ¬ Stored i c := by
  unfold Info.fromFile
  constructor
  · intro h
    split at h
    · cases h
    · rename_i s hs
      split at h
      · cases h
      · rename_i hj
        obtain ⟨h1, h2⟩ := (readToString_iff ..).mp hs
        refine ⟨s, h1, h2, fun i hi => ?_⟩
        rw [(C92_exact ..).mpr hi] at hj
        cases hj
  · rintro ⟨c, h1, h2, h3⟩
    rw [(readToString_iff ..).mpr ⟨h1, h2⟩]
    simp only []
    cases hf : Info.fromJson c with
    | none => rfl
    | some i => exact absurd ((C92_exact ..).mp hf) (h3 i)

/-- C92 as far as it holds: an error is reported exactly if there is no text in the file. Missing: texts that are no documents of metadata, for
which there is no error but a panic. -/
theorem C92_errors_partial (cwd : Loc) (fs : FS) (path : Bytes) :
    (∃ e, Info.fromFile cwd fs path = .err e) ↔ ¬ ∃ c, FileHas cwd fs path c ∧ Text c := by
  unfold Info.fromFile
  constructor
  · rintro ⟨e, h⟩ ⟨c, hc⟩
    rw [(readToString_iff ..).mpr hc] at h
    simp only [] at h
    split at h <;> cases h
  · intro h
    cases hr : fs.readToString cwd path with
    | none => exact ⟨_, rfl⟩
    | some c => exact absurd ⟨c, (readToString_iff ..).mp hr⟩ h

/-! ### Starting a torrent -/

/-- C92: what a start does with the cache file, whatever it holds: metadata is used as it is; what is no text is as good as no file; everything else ends
the start with a panic. -/
theorem C92_start {ε : Type} (m : Build) (cwd : Loc) (fs : FS) (dial : Dial) (f : Nat) (peerId infoHash c : Bytes) (room : Nat)
    (hh : 2 < infoHash.length) (hd : fs (cwd ++ [b!"downloads"]) = some .dir) (hc : fs (cacheLoc cwd infoHash) = some (.file c)) :
    (∀ i, Text c → Stored i c → (collectInfo m cwd fs dial f peerId infoHash room : Res ε (Option Info) × FS) = (.ok (some i), fs)) ∧
    (Text c → (∀ i, ¬ Stored i c) → (collectInfo m cwd fs dial f peerId infoHash room : Res ε (Option Info) × FS) = (.panic, fs)) ∧
    (¬ Text c → (∀ e, getInfo m dial f peerId infoHash = .err e →
        (collectInfo m cwd fs dial f peerId infoHash room : Res ε (Option Info) × FS) = (.ok none, fs)) ∧
      (∀ j, getInfo m dial f peerId infoHash = .ok j → ∃ fs', (collectInfo m cwd fs dial f peerId infoHash room : Res ε (Option Info) × FS) =
        (.ok (some j), fs') ∧ fs' (cacheLoc cwd infoHash) = some (.file (j.json.take room)))) := by
  have hr : fs.readToString cwd (cachePath infoHash) = if validUtf8 c then some c else none := by
    rw [readToString_cache hh hd, readFile, hc, Option.bind_some]
  refine ⟨?_, ?_, ?_⟩
  · intro i ht hs
    rw [if_pos ((text_iff c).mpr ht)] at hr
    rw [collectInfo_exists hd, Info.fromFile, hr]
    simp only []
    rw [(C92_exact ..).mpr hs]
  · intro ht hs
    rw [if_pos ((text_iff c).mpr ht)] at hr
    rw [collectInfo_exists hd, Info.fromFile, hr]
    simp only []
    cases hf : Info.fromJson c with
    | none => rfl
    | some i => exact absurd ((C92_exact ..).mp hf) (hs i)
  · intro ht
    rw [if_neg (by rw [text_iff]; exact ht)] at hr
    rw [collectInfo_exists hd, Info.fromFile, hr]
    refine ⟨fun e he => by simp only [he], fun j hj => ?_⟩
    simp only [hj]
    have hsafe := C62_safe infoHash
    obtain ⟨n1, n2, n3⟩ := hsafe.2.2.2 hh
    have hp := cachePath_parse (hsafe.2.1 _ (by decide)) n1 n2
    have hn : hasNul [b!"downloads", percentEncode infoHash] = false := by
      have : (0 : UInt8) ∉ percentEncode infoHash := hsafe.2.2.1
      simp [hasNul, this]
    have ho : fs.openCreate cwd (PathBuf.parse (cachePath infoHash)) = .ok (cacheLoc cwd infoHash, fs) := by
      have e : cwd ++ [b!"downloads"] ++ [percentEncode infoHash] = cacheLoc cwd infoHash := by simp [cacheLoc]
      rw [hp]
      simp only [FS.openCreate, hn, Bool.or_self, Bool.false_eq_true, if_false, List.getLast?_cons_cons, List.getLast?_singleton,
        List.dropLast_cons_cons, List.dropLast_singleton, FS.walk, PathBuf.base]
      rw [if_neg (by decide), hd]
      simp only [Res.bind_ok, if_neg n3, e, hc]
    unfold Info.save
    rw [ho]
    simp only []
    by_cases hroom : room < j.json.length
    · simp only [hroom, if_true]
      exact ⟨_, rfl, by simp [FS.set]⟩
    · simp only [hroom, if_false]
      exact ⟨_, rfl, by simp [FS.set]⟩

/-! ### Cases -/

/-- A document as a person may write it: other order, other members, white space, escapes, also for a character beyond the first 65536. -/
def handWritten : Bytes :=
  b!" { \"name\" : \"a\\u00e9\\ud83d\\uDE00\\n\\/\" ,\r\n\t\"created by\": [1.5e3, {\"x\": null}, \"\\ud800\", -0],\n \"pieces\": [ 0,255 ],\"piece_length\": 16384,\n \"files\":[[[\"x\"],18446744073709551615],{\"length\":0,\"path\":[]}] }\n"

/-- The metadata it stands for. -/
def handWrittenInfo : Info :=
  { files := some [⟨[b!"x"], 2 ^ 64 - 1⟩, ⟨[], 0⟩], length := none, name := b!"aé😀\n/", pieceLength := 16384, pieces := [0, 255] }

/-- Non-vacuity: it is read. -/
example : Stored handWrittenInfo handWritten := (C92_exact ..).mp (by decide +kernel)

/-- A file system with this cache file. -/
def cacheWith (c : Bytes) : FS := fun l =>
  if l = [b!"home"] ∨ l = [b!"home", b!"downloads"] then some .dir
  else if l = cacheLoc [b!"home"] (List.replicate 20 7) then some (.file c) else none

theorem cacheWith_has (c : Bytes) : FileHas [b!"home"] (cacheWith c) (cachePath (List.replicate 20 7)) c := by
  have hp : PathBuf.parse (cachePath (List.replicate 20 7)) = ⟨false, [b!"downloads", percentEncode (List.replicate 20 7)], false⟩ := by decide +kernel
  have hd : cacheWith c ([b!"home"] ++ [b!"downloads"]) = some .dir := by unfold cacheWith; rw [if_pos (by simp)]
  unfold FileHas
  rw [hp]
  refine ⟨by decide +kernel, rfl, [b!"home", b!"downloads"], percentEncode (List.replicate 20 7), ?_, rfl, by decide +kernel, ?_⟩
  · simp only [List.dropLast_cons_cons, List.dropLast_singleton, FS.walk, PathBuf.base, Bool.false_eq_true, if_false]
    rw [if_neg (by decide), hd]
    rfl
  · have e : [b!"home", b!"downloads"] ++ [percentEncode (List.replicate 20 7)] = cacheLoc [b!"home"] (List.replicate 20 7) := by decide +kernel
    unfold cacheWith
    rw [e, if_neg (by decide +kernel), if_pos rfl]

example : Info.fromFile [b!"home"] (cacheWith handWritten) (cachePath (List.replicate 20 7)) = .ok handWrittenInfo :=
  (C92_file ..).mpr ⟨handWritten, cacheWith_has _, (text_iff _).mp (by decide +kernel), (C92_exact ..).mp (by decide +kernel)⟩

/-- Texts that are no documents of metadata: none of JSON, a string cut short, garbage after the end, a field twice, a field missing, a number too large for
a byte, a number too large, a fraction, a lone surrogate in a name or in the name of any member, a comma too many, a control character. -/
def notStored : List Bytes :=
  [b!"", b!"{\"files\":null,\"length\":5,\"name\":\"x", b!"{\"files\":null,\"length\":5,\"name\":\"x\",\"piece_length\":1,\"pieces\":[]}x",
   b!"{\"files\":null,\"length\":5,\"name\":\"x\",\"name\":\"x\",\"piece_length\":1,\"pieces\":[]}", b!"{\"length\":5,\"name\":\"x\",\"piece_length\":1}",
   b!"{\"name\":\"x\",\"piece_length\":1,\"pieces\":[256]}", b!"{\"length\":18446744073709551616,\"name\":\"x\",\"piece_length\":1,\"pieces\":[]}",
   b!"{\"length\":5.0,\"name\":\"x\",\"piece_length\":1,\"pieces\":[]}", b!"{\"name\":\"\\ud800\",\"piece_length\":1,\"pieces\":[]}",
   b!"{\"name\":\"x\",\"\\ud800\":1,\"piece_length\":1,\"pieces\":[]}", b!"{\"name\":\"x\",\"piece_length\":1,\"pieces\":[1,]}",
   b!"{\"name\":\"\n\",\"piece_length\":1,\"pieces\":[]}", b!"{\"name\":\"x\",\"piece_length\":01,\"pieces\":[]}"]

theorem notStored_none : ∀ c ∈ notStored, Info.fromJson c = none := by decide +kernel

/-- C92 refuted: these are texts, and reading them is no error but a panic, and so is the start of the torrent. -/
theorem C92_refuted (c : Bytes) (hc : c ∈ notStored) :
    Info.fromFile [b!"home"] (cacheWith c) (cachePath (List.replicate 20 7)) = .panic ∧
    ∀ (m : Build) dial f peerId room, (collectInfo m [b!"home"] (cacheWith c) dial f peerId (List.replicate 20 7) room : Res Unit (Option Info) × FS) =
      (.panic, cacheWith c) := by
  have ht : ∀ c ∈ notStored, validUtf8 c = true := by decide +kernel
  have hn : ∀ i, ¬ Stored i c := by
    intro i hi
    have := (C92_exact ..).mpr hi
    rw [notStored_none c hc] at this
    cases this
  have hT := (text_iff c).mp (ht c hc)
  refine ⟨(C92_panics_exactly ..).mpr ⟨c, cacheWith_has c, hT, hn⟩, fun m dial f peerId room => ?_⟩
  refine (C92_start m _ _ dial f peerId (List.replicate 20 7) c room (by decide) ?_ ?_).2.1 hT hn
  · unfold cacheWith; rw [if_pos (by simp)]
  · unfold cacheWith; rw [if_neg (by decide +kernel), if_pos rfl]

end RustBit
