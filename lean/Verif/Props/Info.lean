/-
Properties C12, C13, C15, C16, C17: torrent metadata.
-/
import Verif.Proofs.Info

namespace RustBit
open Spec Decoder

/-! ### Witnesses -/

/-- A two-file torrent. -/
def sampleInfo : Info :=
  { files := some [⟨[b!"a", b!"b"], 3⟩, ⟨[b!"c"], 5⟩], length := none, name := b!"n",
    pieceLength := 4, pieces := List.replicate 40 7 }

theorem sampleInfo_fits : InfoFits sampleInfo :=
  ⟨by decide, by decide, by decide, by decide, by
    intro fs h; simp only [sampleInfo, Option.some.injEq] at h; subst h; decide⟩

theorem sampleInfo_nonempty : InfoNonempty sampleInfo :=
  ⟨by decide, by decide, by
    intro fs h; simp only [sampleInfo, Option.some.injEq] at h; subst h; decide⟩

theorem sampleInfo_ascii : InfoAscii sampleInfo :=
  ⟨ascii_of_lit rfl, by
    intro fs h; simp only [sampleInfo, Option.some.injEq] at h; subst h
    simp only [Ascii]; decide⟩

/-! ### C12 -/

/-- C12, for non-empty ASCII text fields and non-empty `pieces` (numbers being 64-bit as in Rust):
`from_bytes` undoes `encode`, whatever the file list. Missing: empty fields and non-ASCII text, for
which the claim is false. -/
theorem C12_info_roundtrip_partial (i : Info) (rest : Bytes) (hf : InfoFits i) (hn : InfoNonempty i)
    (ha : InfoAscii i) : Info.fromBytes (i.encode ++ rest) = .ok i :=
  fromBytes_doc i _ rest (isBencode_info i ha) hf hn

example : InfoFits sampleInfo ∧ InfoNonempty sampleInfo ∧ InfoAscii sampleInfo :=
  ⟨sampleInfo_fits, sampleInfo_nonempty, sampleInfo_ascii⟩

/-- A torrent named "é". -/
def accentInfo : Info := ⟨none, some 1, [0xC3, 0xA9], 1, [1]⟩

/-- The full C12 is false: a torrent named "é" does not survive. -/
theorem C12_refuted : validUtf8 accentInfo.name = true ∧
    Info.fromBytes accentInfo.encode = .err (.decoderError (.badNumberDecode [])) := by
  decide +kernel

/-- The full C12 is false: nor does a torrent with an empty name. -/
theorem C12_refuted_empty : (Info.fromBytes (Info.encode ⟨none, some 1, [], 1, [1]⟩)) =
    .err (.decoderError (.badNumberDecode [])) := by decide +kernel

/-! ### C13 -/

/-- C13, for metadata that is the canonical bencoding of an info dictionary with only the fields the
client knows (and non-empty ASCII text): the hash computed from the parsed `Info` is the hash
of the received bytes. Missing: metadata with other keys, binary or empty text (refuted below). -/
theorem C13_hash_of_received_partial (sha : Bytes → Bytes) (i : Info) (b : Bytes)
    (hb : IsBencode (infoDict i) b) (hf : InfoFits i) (hn : InfoNonempty i) (ha : InfoAscii i) :
    ∃ j, Info.fromBytes b = .ok j ∧ j.computeInfoHash sha = sha b := by
  refine ⟨i, by simpa using fromBytes_doc i b [] hb hf hn, ?_⟩
  rw [Info.computeInfoHash, isBencode_unique (isBencode_info i ha) hb]

example : IsBencode (infoDict sampleInfo) sampleInfo.encode := isBencode_info _ sampleInfo_ascii

/-- The full C13 is false: metadata with a `private` key (BEP 27) is accepted, but what is hashed
afterwards is a different document. -/
theorem C13_refuted : ∃ (b : Bytes) (i : Info), Info.fromBytes b = .ok i ∧ i.encode ≠ b ∧
    (∃ v, IsBencode v b ∧ v.Canonical) := by
  refine ⟨b!"d6:lengthi1e4:name1:x12:piece lengthi1e6:pieces1:y7:privatei1ee",
    ⟨none, some 1, b!"x", 1, b!"y"⟩, by decide +kernel, by decide +kernel, ?_⟩
  let x : EVal := .map [(b!"length", .usize 1), (b!"name", .str b!"x"), (b!"piece length", .usize 1),
    (b!"pieces", .str b!"y"), (b!"private", .usize 1)]
  have hx : Encodable x := by
    simp only [x, Encodable, EncodableEntries, Ascii]; decide
  exact ⟨sem x, isBencode_encode x hx, canonical_sem x hx⟩

/-! ### C15 -/

/-- C15: `verify_piece` is defined exactly for the indices below `pieces.len() / 20`, and then it
answers whether the SHA-1 of the data is the 20-byte string listed at that index. -/
theorem C15_verify_piece {ε : Type} (sha : Bytes → Bytes) (i : Info) (data : Bytes) (idx : Nat) :
    (idx < i.pieces.length / 20 →
      (i.verifyPiece sha data idx : Res ε Bool) =
        .ok (decide (sha data = (i.pieces.drop (20 * idx)).take 20))) ∧
    (i.pieces.length / 20 ≤ idx → (i.verifyPiece sha data idx : Res ε Bool) = .panic) := by
  constructor
  · intro h
    have : (i.getPiece idx : Res ε Bytes) = .ok ((i.pieces.drop (20 * idx)).take 20) := by
      rw [Info.getPiece, chunksExact_getElem?, if_pos h, Nat.mul_comm]
    rw [Info.verifyPiece, this]
    simp only [Res.bind_ok]
    congr 1
    by_cases e : sha data = (i.pieces.drop (20 * idx)).take 20
    · simp [e]
    · simp [e]
  · intro h
    have : (i.getPiece idx : Res ε Bytes) = .panic := by
      rw [Info.getPiece, chunksExact_getElem?, if_neg (by omega)]
    rw [Info.verifyPiece, this]
    rfl

example : 1 < sampleInfo.pieces.length / 20 := by decide

/-! ### C16 -/

/-- C16, when the sum fits in 64 bits: the total length is the sum of the lengths of the files to
write, in both build modes. Missing: sums of 2^64 or more and metadata without any length,
for which the claim is false (see below). -/
theorem C16_total_length_partial {ε : Type} (m : Build) (i : Info) (fs : List File)
    (h : i.getFiles = .ok fs) (hs : (fs.map File.length).sum < 2 ^ 64) :
    (i.getTotalLength m : Res ε Nat) = .ok (fs.map File.length).sum := by
  unfold Info.getFiles at h
  unfold Info.getTotalLength
  cases hf : i.files with
  | some fs' =>
    simp only [hf, Res.ok.injEq] at h ⊢
    subst h
    exact usum_of_lt m _ hs
  | none =>
    simp only [hf] at h ⊢
    cases hl : i.length with
    | some n =>
      simp only [hl, Res.ok.injEq] at h ⊢
      subst h
      simp
    | none => simp [hl] at h

example : sampleInfo.getFiles = .ok [⟨[b!"a", b!"b"], 3⟩, ⟨[b!"c"], 5⟩] ∧
    ([3, 5] : List Nat).sum < 2 ^ 64 := ⟨rfl, by decide⟩

/-- In a debug build a sum that does not fit panics for every file list. -/
theorem C16_overflow_panics_debug (i : Info) (fs : List File) (hf : i.files = some fs)
    (hs : 2 ^ 64 ≤ (fs.map File.length).sum) : (i.getTotalLength .debug : Res Unit Nat) = .panic := by
  unfold Info.getTotalLength
  rw [hf]
  exact usum_debug _ hs

/-- C16, exactly: the total length is the sum of the lengths of the files to write just if this sum fits in 64 bits. Otherwise a debug build
panics, and a release build answers what is left over of the sum. -/
theorem C16_exact {ε : Type} (m : Build) (i : Info) (fs : List File) (h : i.getFiles = .ok fs) (hl : ∀ f ∈ fs, f.length < 2 ^ 64) :
    ((i.getTotalLength m : Res ε Nat) = .ok (fs.map File.length).sum ↔ (fs.map File.length).sum < 2 ^ 64) ∧
    (2 ^ 64 ≤ (fs.map File.length).sum → (i.getTotalLength m : Res ε Nat) =
      match m with | .debug => .panic | .release => .ok ((fs.map File.length).sum % 2 ^ 64)) := by
  have hbig : 2 ^ 64 ≤ (fs.map File.length).sum → (i.getTotalLength m : Res ε Nat) =
      match m with | .debug => .panic | .release => .ok ((fs.map File.length).sum % 2 ^ 64) := by
    intro hs
    unfold Info.getFiles at h
    unfold Info.getTotalLength
    cases hf : i.files with
    | some fs' =>
      simp only [hf, Res.ok.injEq] at h ⊢
      subst h
      cases m with
      | debug => exact usum_debug _ hs
      | release =>
        exact usum_release _
    | none =>
      cases hn : i.length with
      | none => simp [hf, hn] at h
      | some n =>
        simp only [hf, hn, Res.ok.injEq] at h
        subst h
        have := hl _ (List.mem_singleton.mpr rfl)
        simp at hs this
        omega
  refine ⟨⟨fun he => ?_, fun hs => C16_total_length_partial m i fs h hs⟩, hbig⟩
  apply Classical.byContradiction
  intro hs
  rw [hbig (by omega)] at he
  cases m with
  | debug => cases he
  | release =>
    simp only [Res.ok.injEq] at he
    have := Nat.mod_lt (fs.map File.length).sum (show 0 < 2 ^ 64 by decide)
    omega

/-- Non-vacuity: three files of 2^63 bytes, of which 2^63 are left over. -/
example : (Info.getTotalLength .release ⟨some [⟨[b!"a"], 2 ^ 63⟩, ⟨[b!"b"], 2 ^ 63⟩, ⟨[b!"c"], 2 ^ 63⟩], none, b!"n", 1, []⟩ : Res Unit Nat) =
    .ok (2 ^ 63) := rfl

/-- The full C16 is false: in a release build the sum wraps around (a 2^63 + 2^63 byte torrent has
total length 0). -/
theorem C16_refuted_wrap :
    let i : Info := { files := some [⟨[b!"a"], 2 ^ 63⟩, ⟨[b!"b"], 2 ^ 63⟩], length := none,
                      name := b!"n", pieceLength := 1, pieces := [] }
    (i.getTotalLength .release : Res Unit Nat) = .ok 0 := rfl

/-- The full C16 is false: metadata with neither `files` nor `length` is accepted by `from_bytes`, and
`get_total_length` then panics. -/
theorem C16_refuted_no_length : ∃ (b : Bytes) (i : Info), Info.fromBytes b = .ok i ∧
    ∀ m, (i.getTotalLength m : Res Unit Nat) = .panic :=
  ⟨b!"d4:name1:x12:piece lengthi1e6:pieces1:ye",
    ⟨none, none, b!"x", 1, b!"y"⟩, by decide +kernel, fun _ => rfl⟩

/-! ### C17 -/

/-- A file entry as BEP 3 demands: a dictionary with an integer `length` and a `path` list of UTF-8
strings. -/
def ValidFileEntry (m : Metainfo) (f : File) : Prop :=
  ∃ d ps, m = .dictionary d ∧ mapGet d b!"length" = some (.integer f.length) ∧
    mapGet d b!"path" = some (.list ps) ∧ ps = f.path.map .string ∧
    ∀ p ∈ f.path, validUtf8 p = true

/-- Metadata whose second file entry lacks its `path`. -/
def droppedFile : Metainfo :=
  .dictionary [(b!"pieces", .string b!"p"), (b!"piece length", .integer 1), (b!"name", .string b!"n"),
    (b!"files", .list [.dictionary [(b!"length", .integer 1), (b!"path", .list [.string b!"x"])],
      .dictionary [(b!"length", .integer 2)]])]

/-- The full C17 is false: the malformed second entry is dropped without an error. -/
theorem C17_refuted : Info.fromMetainfo droppedFile = .ok ⟨some [⟨[b!"x"], 1⟩], none, b!"n", 1, b!"p"⟩ ∧
    ∃ es, droppedFile.getListFromDict b!"files" = .ok es ∧ es.length = 2 := by
  refine ⟨by decide +kernel, [.dictionary [(b!"length", .integer 1), (b!"path", .list [.string b!"x"])],
      .dictionary [(b!"length", .integer 2)]], ?_, rfl⟩
  simp [droppedFile, Metainfo.getListFromDict, Metainfo.getDictContent, mapGet,
    Metainfo.getListContent]

theorem pathComponents_ok {l : List Metainfo} {ps : List Bytes} (h : pathComponents l = .ok ps) :
    l = ps.map .string ∧ ∀ p ∈ ps, validUtf8 p = true := by
  induction l generalizing ps with
  | nil => simp only [pathComponents, Res.ok.injEq] at h; subst h; simp
  | cons a t ih =>
    rw [pathComponents] at h
    cases a with
    | string s =>
      simp only [Metainfo.getStringContent] at h
      by_cases hu : validUtf8 s = true
      · simp only [hu, if_true, Res.bind_ok] at h
        cases ht : pathComponents t with
        | ok r =>
          simp only [ht, Res.bind_ok, Res.ok.injEq] at h
          subst h
          obtain ⟨h1, h2⟩ := ih ht
          refine ⟨by simp [← h1], ?_⟩
          intro p hp
          rcases List.mem_cons.mp hp with rfl | hp
          · exact hu
          · exact h2 p hp
        | err e => simp [ht] at h
        | panic => simp [ht] at h
        | hang => simp [ht] at h
      · simp [hu] at h
    | _ => simp [Metainfo.getStringContent] at h

/-- `File::from_metainfo` accepts exactly the valid entries. -/
theorem fileFromMetainfo_iff (m : Metainfo) (f : File) :
    File.fromMetainfo m = .ok f ↔ ValidFileEntry m f := by
  constructor
  · intro h
    rw [File.fromMetainfo] at h
    cases m with
    | dictionary d =>
      simp only [Metainfo.getIntegerFromDict, Metainfo.getListFromDict, Metainfo.getDictContent,
        Res.bind_ok] at h
      cases hl : mapGet d b!"length" with
      | none => simp [hl] at h
      | some lv =>
        simp only [hl] at h
        cases lv with
        | integer n =>
          simp only [Metainfo.getIntegerContent, Res.bind_ok] at h
          cases hp : mapGet d b!"path" with
          | none => simp [hp] at h
          | some pv =>
            simp only [hp] at h
            cases pv with
            | list ps =>
              simp only [Metainfo.getListContent, Res.bind_ok] at h
              cases hc : pathComponents ps with
              | ok r =>
                simp only [hc, Res.bind_ok, Res.ok.injEq] at h
                subst h
                obtain ⟨h1, h2⟩ := pathComponents_ok hc
                exact ⟨d, ps, rfl, hl, hp, h1, h2⟩
              | err e => simp [hc] at h
              | panic => simp [hc] at h
              | hang => simp [hc] at h
            | _ => simp [Metainfo.getListContent] at h
        | _ => simp [Metainfo.getIntegerContent] at h
    | _ => simp [Metainfo.getIntegerFromDict, Metainfo.getDictContent] at h
  · rintro ⟨d, ps, rfl, h1, h2, rfl, h4⟩
    simp [File.fromMetainfo, Metainfo.getIntegerFromDict, Metainfo.getListFromDict,
      Metainfo.getDictContent, h1, h2, Metainfo.getIntegerContent, Metainfo.getListContent,
      pathComponents_strings _ h4]

/-- C17, the provable part: a single entry is accepted exactly when it is well formed, and if all
entries are well formed none is dropped and the order is kept. Missing: rejecting the metadata when
one entry is malformed (refuted above). -/
theorem C17_wellformed_kept_partial (a : Metainfo) (i : Info) (es : List Metainfo) (fs : List File)
    (h : Info.fromMetainfo a = .ok i) (hes : a.getListFromDict b!"files" = .ok es)
    (hlen : es.length = fs.length)
    (hv : ∀ (n : Nat) (m : Metainfo) (f : File), es[n]? = some m → fs[n]? = some f → ValidFileEntry m f) :
    i.files = some fs := by
  have hk : keepOk (es.map File.fromMetainfo) = fs := by
    clear h hes
    induction es generalizing fs with
    | nil =>
      cases fs with
      | nil => rfl
      | cons f t => simp at hlen
    | cons m t ih =>
      cases fs with
      | nil => simp at hlen
      | cons f t' =>
        have h0 := (fileFromMetainfo_iff m f).mpr (hv 0 m f rfl rfl)
        simp only [List.map_cons, h0, keepOk]
        rw [ih t' (by simpa using hlen) (fun n m f h1 h2 => hv (n + 1) m f (by simpa using h1)
          (by simpa using h2))]
  rw [Info.fromMetainfo] at h
  cases h1 : a.getBytesFromDict b!"pieces" with
  | ok p =>
    cases h2 : a.getIntegerFromDict b!"piece length" with
    | ok pl =>
      cases h3 : a.getStringFromDict b!"name" with
      | ok nm =>
        simp only [h1, h2, h3, hes, Res.mapErr_ok, Res.bind_ok, Res.toOption] at h
        cases h4 : a.getIntegerFromDict b!"length" <;>
          simp only [h4, Res.bind_ok, Res.ok.injEq, Res.bind_panic, Res.bind_hang, reduceCtorEq] at h
        all_goals (subst h; simp [hk])
      | err e => simp [h1, h2, h3] at h
      | panic => simp [h1, h2, h3] at h
      | hang => simp [h1, h2, h3] at h
    | err e => simp [h1, h2] at h
    | panic => simp [h1, h2] at h
    | hang => simp [h1, h2] at h
  | err e => simp [h1] at h
  | panic => simp [h1] at h
  | hang => simp [h1] at h

example : ∃ es, (toMeta (infoDict sampleInfo)).getListFromDict b!"files" = .ok es ∧ es.length = 2 ∧
    Info.fromMetainfo (toMeta (infoDict sampleInfo)) = .ok sampleInfo :=
  ⟨[toMeta (fileDict ⟨[b!"a", b!"b"], 3⟩), toMeta (fileDict ⟨[b!"c"], 5⟩)], by
    simp [sampleInfo, infoDict, toMeta, toMetaEntries, Metainfo.getListFromDict,
      Metainfo.getDictContent, mapGet, Metainfo.getListContent, toMetaElems], rfl,
    fromMetainfo_infoDict _ sampleInfo_nonempty⟩

end RustBit
