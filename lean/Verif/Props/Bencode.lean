/-
Properties C01-C11: the bencode decoder and encoder.
-/
import Verif.Proofs.EncodeTyped
import Verif.Proofs.Cut
import Verif.Proofs.DecodeExact

namespace RustBit
open Spec Decoder

/-! ### A concrete document used as witness -/

/-- `{"a": 1, "b": ["xy", {"": 0}], "c": 18446744073709551615}` -/
def sampleDoc : BVal :=
  .dict [(b!"a", .int 1), (b!"b", .list [.str b!"xy", .dict [([], .int 0)]]),
    (b!"c", .int 18446744073709551615)]

def sampleBytes : Bytes := b!"d1:ai1e1:bl2:xyd0:i0eee1:ci18446744073709551615ee"

theorem isDecimal_of_eq {n : Nat} {ds : Bytes} (h : ds = decimal n) : IsDecimal n ds :=
  h ▸ isDecimal_decimal n

theorem isStr_of_eq {s bs : Bytes} (h : bs = encBytes s) : IsStr s bs := h ▸ isStr_encBytes s

theorem sample_isBencode : IsBencode sampleDoc sampleBytes := by
  have hi : ∀ (n : Nat) (bs : Bytes), bs = encUsize n → IsBencode (.int n) bs :=
    fun n bs h => h ▸ isBencode_encUsize n
  have e1 : IsEntries [([], .int 0)] (b!"0:" ++ b!"i0e" ++ []) :=
    .cons (isStr_of_eq rfl) (hi 0 _ rfl) .nil
  have e2 : IsElems [.str b!"xy", .dict [([], .int 0)]]
      (b!"2:xy" ++ ((100 :: (b!"0:" ++ b!"i0e" ++ []) ++ [101]) ++ [])) :=
    .cons (.str (isStr_of_eq rfl)) (.cons (.dict e1) .nil)
  have big : encUsize 18446744073709551615 = b!"i18446744073709551615e" := by
    have : decimal 18446744073709551615 = b!"18446744073709551615" := by
      apply isDecimal_unique (isDecimal_decimal _)
      refine ⟨by simp, by decide, by decide, by decide⟩
    rw [encUsize, this]; rfl
  have e3 := IsEntries.cons (k := b!"c") (isStr_of_eq rfl) (isBencode_encUsize 18446744073709551615) .nil
  have e4 := IsEntries.cons (k := b!"b") (isStr_of_eq rfl) (.list e2) e3
  have e5 := IsEntries.cons (k := b!"a") (isStr_of_eq rfl) (isBencode_encUsize 1) e4
  have e6 := IsBencode.dict e5
  rw [big] at e6
  exact e6

/-! ### C01 -/

/-- C01, for the documents the decoder supports (`Readable`): unsigned 64-bit integers, text keys and
no empty string as a value. Whatever the nesting and whatever follows, decoding gives the value
and consumes exactly the document. Missing for the full claim: negative integers, integers ≥ 2^64,
binary keys, empty strings (see `C01_refuted`). -/
theorem C01_decode_valid_partial (v : BVal) (doc rest : Bytes) (hdoc : IsBencode v doc)
    (hr : Readable v) (hk : DistinctKeys v) :
    decode (doc ++ rest) = .ok (toMeta v, doc.length) := by
  have := decodeAt_doc hdoc hr (c := doc ++ rest) (p := 0) (rest := rest) (by simp)
  rw [decode, this, meaning_eq_toMeta v hk]
  simp

example : IsBencode sampleDoc sampleBytes ∧ Readable sampleDoc ∧ DistinctKeys sampleDoc :=
  ⟨sample_isBencode, by
    simp only [sampleDoc, Readable, ReadableEntries, ReadableElems]; decide, by
    simp only [sampleDoc, DistinctKeys, DistinctKeysEntries, DistinctKeysElems]; decide⟩

/-- C01, exactly: of the bencode documents whose dictionaries have distinct keys those are read as what they mean that the decoder supports,
and no others. -/
theorem C01_exact (v : BVal) (doc rest : Bytes) (hdoc : IsBencode v doc) (hk : DistinctKeys v) :
    decode (doc ++ rest) = .ok (toMeta v, doc.length) ↔ Readable v := by
  constructor
  · intro h
    have hn : 0 < doc.length := by
      obtain ⟨b, t, rfl, -, -⟩ := isBencode_head hdoc
      simp
    obtain ⟨bs, r, e, e2, hl⟩ := (lenient_of_decode _).1 _ _ _ _ h hn
    exact (readable_of_lenient hdoc (noEmptyB_of_toMeta v (lenient_noEmpty hl)) hl (by simpa using e)).1
  · exact fun hr => C01_decode_valid_partial v doc rest hdoc hr hk

/-- Non-vacuity: a document that is not supported, and is accepted with another meaning. -/
example : IsBencode (.dict [(b!"a", .str [])]) b!"d1:a0:e" ∧ ¬ Readable (.dict [(b!"a", .str [])]) ∧
    decode b!"d1:a0:e" = .ok (.dictionary [(b!"a", .nothing), ([], .nothing)], 7) :=
  ⟨.dict (.cons (bs := b!"0:") (isStr_of_eq rfl) (.str (isStr_of_eq rfl)) .nil), by simp [Readable, ReadableEntries], rfl⟩

/-- The full C01 is false: the valid document `l0:e` (a list holding the empty string) is not
decoded. -/
theorem C01_refuted : ¬ ∀ (v : BVal) (doc : Bytes), IsBencode v doc → v.Canonical →
    ∃ m, decode doc = .ok (m, doc.length) := by
  intro h
  have hd : IsBencode (.list [.str []]) (108 :: (b!"0:" ++ []) ++ [101]) :=
    .list (.cons (.str (isStr_of_eq rfl)) .nil)
  obtain ⟨m, hm⟩ := h _ _ hd ⟨trivial, trivial⟩
  have : decode (108 :: (b!"0:" ++ []) ++ [101]) = .hang := rfl
  rw [this] at hm
  cases hm

/-- Negative integers, which BEP 3 allows, are rejected. -/
theorem C01_refuted_negative : IsBencode (.int (-5)) b!"i-5e" ∧ ∀ m n, decode b!"i-5e" ≠ .ok (m, n) :=
  ⟨.int (.neg (n := 5) (by decide) (isDecimal_of_eq rfl)), by
    intro m n h
    have : decode b!"i-5e" = .err (.badNumberDecode []) := rfl
    rw [this] at h; cases h⟩

/-! ### C02 -/

/-- C02, for ASCII text: every encodable value (any nesting; a `None` only as an element of a list, where
it is left out) is encoded as a valid bencode document of that value with strictly ascending
dictionary keys. Missing: text with non-ASCII characters and maps holding a `None`, for which
the claim is false (`C02_refuted`, `C02_refuted_none`). -/
theorem C02_encode_canonical_partial (x : EVal) (h : Encodable x) :
    IsBencode (sem x) x.encode ∧ (sem x).Canonical :=
  ⟨isBencode_encode x h, canonical_sem x h⟩

/-- A value used as witness: `{"b": [1, "x"], "a": b"\xff"}`. -/
def sampleVal : EVal :=
  .map [(b!"b", .vec [.usize 1, .str b!"x"]), (b!"a", .bytes [0xff]), (b!"ab", .opt (some (.usize 7)))]

theorem sampleVal_encodable : Encodable sampleVal := by
  simp only [sampleVal, Encodable, EncodableEntries, EncodableElems, Ascii, absent]; decide

/-- Non-vacuity with absent elements: `[None, 1, Some(None), "x"]` is the list `[1, "x"]`. -/
example : Encodable (.vec [.opt none, .usize 1, .opt (some (.opt none)), .str b!"x"]) ∧
    sem (.vec [.opt none, .usize 1, .opt (some (.opt none)), .str b!"x"]) = .list [.int 1, .str b!"x"] :=
  ⟨by simp only [Encodable, EncodableElems, Ascii, absent]; decide, rfl⟩

example : sampleVal.encode = b!"d1:a1:" ++ [0xff] ++ b!"2:abi7e1:bli1e1:xee" := rfl

/-- The full C02 is false: the text "é" is encoded as `1:é`, but it has two bytes; no bencode value
has this encoding. -/
theorem C02_refuted : validUtf8 [0xC3, 0xA9] = true ∧
    ∀ v, ¬ IsBencode v (EVal.str [0xC3, 0xA9]).encode := by
  refine ⟨rfl, ?_⟩
  intro v h
  have he : (EVal.str [0xC3, 0xA9]).encode = [0x31, 0x3A, 0xC3, 0xA9] := rfl
  rw [he] at h
  have h2 : IsBencode (.str [0xC3]) [0x31, 0x3A, 0xC3] := .str (isStr_of_eq rfl)
  obtain ⟨-, hb, -⟩ := isBencode_prefix h h2 (r := []) (r' := [0xA9]) rfl
  simp at hb

/-- `d1:ae` is not bencode: the key has no value. -/
theorem not_dangling : ∀ v, ¬ IsBencode v b!"d1:ae" := by
  intro v h
  generalize e : b!"d1:ae" = bs at h
  cases h with
  | int hi => cases e
  | list hi => cases e
  | str hs => exact absurd (isStr_append_head hs (r := []) (by rw [List.append_nil, e])) (by decide)
  | dict hd =>
    rename_i d bs
    have hbs : bs = b!"1:a" := by
      have h2 : b!"1:a" ++ [101] = bs ++ [101] := by simpa using e
      exact (List.append_cancel_right h2).symm
    subst hbs
    have hgen : ∀ d bs, IsEntries d bs → bs = b!"1:a" → False := by
      intro d bs h e
      cases h with
      | nil => cases e
      | cons hk hv hl =>
        rename_i k v d ks bs1 bs2
        have hk' : IsStr b!"a" b!"1:a" := isStr_of_eq rfl
        obtain ⟨-, e3, e4⟩ := isStr_prefix hk hk' (r := bs1 ++ bs2) (r' := [])
          (by simpa using e)
        obtain ⟨b, t, hb, -⟩ := isBencode_head hv
        rw [hb] at e4
        simp at e4
    exact hgen _ _ hd rfl

/-- The full C02 is false for maps of optional values: `{"a": None}` is encoded as a dictionary whose key has
no value. -/
theorem C02_refuted_none : ∀ v, ¬ IsBencode v (EVal.map [(b!"a", .opt none)]).encode := by
  intro v h
  have he : (EVal.map [(b!"a", .opt none)]).encode = b!"d1:ae" := rfl
  rw [he] at h
  exact not_dangling v h

/-- C02, exactly: of the values whose text is UTF-8 and whose maps have one entry per key - all there are in Rust - just the `Encodable`
ones are encoded as documents of themselves. -/
theorem C02_exact (x : EVal) (ht : TextOk x) (ho : OneEntryPerKey x) : IsBencode (sem x) x.encode ↔ Encodable x :=
  ⟨fun h => (tight x ht ho _ h).2 rfl, isBencode_encode x⟩

/-- Non-vacuity: the witness of the refutations and the sample are both in the range of the theorem. -/
example : TextOk (.vec [.str [0xC3, 0xA9]]) ∧ OneEntryPerKey (.vec [.str [0xC3, 0xA9]]) ∧ TextOk sampleVal ∧ OneEntryPerKey sampleVal := by
  simp only [sampleVal, TextOk, TextOkElems, TextOkEntries, OneEntryPerKey, OneEntryPerKeyElems, OneEntryPerKeyEntries]; decide

/-- The text `ééé1:x`: six characters in nine bytes. -/
def smuggled : Bytes := [0xC3, 0xA9, 0xC3, 0xA9, 0xC3, 0xA9] ++ b!"1:x"

/-- The full C02 is false in a worse way: the list of this one text is written as the valid document of the list of two
other texts, `ééé` and `x`. -/
theorem C02_refuted_smuggled : validUtf8 smuggled = true ∧
    IsBencode (.list [.str [0xC3, 0xA9, 0xC3, 0xA9, 0xC3, 0xA9], .str b!"x"]) (EVal.vec [.str smuggled]).encode := by
  refine ⟨rfl, ?_⟩
  have h1 : IsBencode (.str [0xC3, 0xA9, 0xC3, 0xA9, 0xC3, 0xA9]) _ := .str (isStr_encBytes _)
  have h2 : IsBencode (.str b!"x") _ := .str (isStr_encBytes _)
  have h3 := IsBencode.list (.cons h1 (.cons h2 .nil))
  exact h3

/-! ### C03 -/

/-- C03, for ASCII text and values the decoder can represent (`Readable (sem x)`: no empty string in
a value position, integers below 2^64): decoding the encoding gives back the value and
consumes exactly the encoding. Missing: empty strings and non-ASCII text, for which it is false. -/
theorem C03_roundtrip_partial (x : EVal) (rest : Bytes) (h : Encodable x) (hr : Readable (sem x)) :
    decode (x.encode ++ rest) = .ok (toMeta (sem x), x.encode.length) :=
  C01_decode_valid_partial _ _ _ (isBencode_encode x h) hr
    (distinct_of_canonical _ (canonical_sem x h))

example : Encodable sampleVal ∧ Readable (sem sampleVal) :=
  ⟨sampleVal_encodable, by
    have : sem sampleVal = .dict [(b!"a", .str [0xff]), (b!"ab", .int 7),
      (b!"b", .list [.int 1, .str b!"x"])] := rfl
    rw [this]
    simp only [Readable, ReadableEntries, ReadableElems]; decide⟩

/-- The full C03 is false: encoding then decoding a list with an empty byte string never returns. -/
theorem C03_refuted : decode (EVal.vec [.bytes []]).encode = .hang := rfl

/-- The full C03 is false for non-ASCII text: a list holding "é" does not survive. -/
theorem C03_refuted_text : decode (EVal.vec [.str [0xC3, 0xA9]]).encode = .hang := rfl

/-- The full C03 is false for non-ASCII text in a worse way: decoding succeeds, consumes everything and gives another value - the end of
the text is taken for a further element. -/
theorem C03_refuted_smuggled : decode (EVal.vec [.str smuggled]).encode =
    .ok (.list [.string [0xC3, 0xA9, 0xC3, 0xA9, 0xC3, 0xA9], .string b!"x"], (EVal.vec [.str smuggled]).encode.length) := rfl

/-! ### C04 -/

/-- C04: the same value encodes to the same bytes whatever order its hash maps (at any depth) yield
their entries. -/
theorem C04_order_independent (x y : EVal) (h : SameMaps x y) (hx : OneEntryPerKey x) :
    x.encode = y.encode := encode_sameMaps h hx

example : SameMaps (.map [(b!"b", .map [(b!"x", .usize 1), (b!"y", .usize 2)]), (b!"a", .usize 3)])
      (.map [(b!"a", .usize 3), (b!"b", .map [(b!"y", .usize 2), (b!"x", .usize 1)])]) ∧
    OneEntryPerKey (.map [(b!"b", .map [(b!"x", .usize 1), (b!"y", .usize 2)]), (b!"a", .usize 3)]) := by
  refine ⟨?_, ?_⟩
  · exact .map (.cons (.map (m' := [(b!"x", .usize 1), (b!"y", .usize 2)])
      (.cons .refl (.cons .refl .nil)) (.swap _ _ _)) (.cons .refl .nil)) (.swap _ _ _)
  · simp only [OneEntryPerKey, OneEntryPerKeyEntries]; decide

/-- C04, second part: the entries are written in strictly ascending key order. -/
theorem C04_ascending (m : List (Bytes × EVal)) (h : (m.map Prod.fst).Nodup) :
    ∃ es : List (Bytes × EVal), es.Perm m ∧ (es.map Prod.fst).Pairwise (· < ·) ∧
      (EVal.map m).encode =
        100 :: (es.map (fun e => (EVal.str e.1).encode ++ e.2.encode)).flatten ++ [101] := by
  refine ⟨sortByKey m, sortByKey_perm m, sortByKey_strict m h, ?_⟩
  rw [EVal.encode, encMap, sortKeys_eq, encodeEntries_eq_map, sortByKey_map (fun e : Bytes × EVal => e.2.encode)]
  simp only [List.map_map]
  rfl

example : ([(b!"b", EVal.usize 1), (b!"a", .usize 2)].map Prod.fst).Nodup := by decide

/-! ### C05 -/

/-- The full C05 is false: `decode` panics on the truncated input `5:ab`, ... -/
theorem C05_refuted_panic : decode b!"5:ab" = .panic := rfl

/-- ... and on `l0:e` it never returns: no number of loop iterations gives a result. -/
theorem C05_refuted_hang : ∀ fuel, decodeF fuel b!"l0:e" 0 = .hang :=
  decodeAt_hang_iff.mp rfl

/-- Exactly the inputs on which the decoder never returns: inside a list, after elements it accepts, there is a
byte that neither begins a value (`i`, `l`, `d`, `1`–`9`) nor ends the list. -/
theorem C05_hangs_exactly_partial (c : Bytes) : (∀ fuel, decodeF fuel c 0 = .hang) ↔ Stuck c := by
  constructor
  · intro h
    have := (stuck_of_hang (2 * c.length + 2)).1 c 0 (by omega) (h _)
    simpa using this
  · intro h
    exact hang_of_stuck h c 0 (by simp)

/-- Non-vacuity: a list inside a dictionary that holds an empty string after a number; and an input that is not
stuck. -/
example : Stuck b!"d1:ali1e0:ee" ∧ ¬ Stuck b!"d1:ali1e" := by
  have hk : LenientStr b!"a" b!"1:a" := .mk (ds := b!"1") (x := 58) (by decide) (by decide) (by decide) rfl (by decide)
  have h1 : Lenient (.integer 1) b!"i1e" := .int (ds := b!"1") (x := 101) (by decide) (by decide) (by decide) (by decide)
  refine ⟨.dict (.inner hk rfl (.list (.next h1 (.here (b := 48) (by decide) (by unfold StartsValue; decide))))), ?_⟩
  intro h
  have := (C05_hangs_exactly_partial _).mpr h 20
  rw [show decodeF 20 b!"d1:ali1e" 0 = .panic from rfl] at this
  cases this

/-- Exactly the inputs on which the decoder panics: those that end inside a number or a string, or before a list
or dictionary is closed. -/
theorem C05_panics_exactly_partial (c : Bytes) : decode c = .panic ↔ Cut c := by
  constructor
  · intro h
    simpa using (cut_of_panic _).1 c 0 h
  · intro h
    obtain ⟨f, hf⟩ := panic_of_cut h c 0 (by simp)
    rw [decode, decodeAt_of_fuel (f := f) (by rw [hf]; simp), hf]

/-- So the decoder returns, with a value or an error, on exactly the other inputs. -/
theorem C05_returns_exactly_partial (c : Bytes) : (decode c).returns ↔ ¬ Cut c ∧ ¬ Stuck c := by
  rw [← C05_panics_exactly_partial, ← C05_hangs_exactly_partial]
  have hh : decode c = .hang ↔ ∀ f, decodeF f c 0 = .hang := decodeAt_hang_iff
  rw [← hh]
  cases decode c <;> simp [Res.returns]

/-- Non-vacuity: an input of each kind. -/
example : Cut b!"d1:ali12" ∧ (decode b!"d1:ai1e1:a").returns = False ∧ (decode b!"i-5e").returns ∧
    (decode b!"d1:ai1ee").returns :=
  ⟨(C05_panics_exactly_partial _).mp rfl, by rw [show decode b!"d1:ai1e1:a" = .panic from rfl]; rfl, trivial, trivial⟩

/-- C05, the provable part: if the input contains no `l` byte the decoder terminates (though it may
panic on truncated input). Missing: inputs with lists, and absence of panics. -/
theorem C05_terminates_without_lists_partial (c : Bytes) (h : (108 : UInt8) ∉ c) :
    decode c ≠ .hang :=
  (noList_noHang _).1 c 0 h (by omega)

example : (108 : UInt8) ∉ b!"d1:ad1:bi5eee" := by decide

/-- C05 on supported documents: `Ok`, whatever follows (from C01). -/
theorem C05_returns_on_documents_partial (v : BVal) (doc rest : Bytes) (hdoc : IsBencode v doc)
    (hr : Readable v) : (decode (doc ++ rest)).returns := by
  have := decodeAt_doc hdoc hr (c := doc ++ rest) (p := 0) (rest := rest) (by simp)
  rw [decode, this]
  trivial

/-! ### C06 -/

/-- `n` successive successful `decode()` calls take the position from `p` to `q`. -/
inductive DecodeCalls (c : Bytes) : Nat → Nat → Nat → Prop
  | none (p) : DecodeCalls c 0 p p
  | call {n p q r v} : decodeAt c p = .ok (v, q) → DecodeCalls c n q r → DecodeCalls c (n + 1) p r

/-- C06: the position never decreases and stays within the input. -/
theorem C06_position_in_bounds (c : Bytes) (n p q : Nat) (h : DecodeCalls c n p q) :
    p ≤ q ∧ (p ≤ c.length → q ≤ c.length) := by
  induction h with
  | none p => exact ⟨Nat.le_refl _, id⟩
  | call h _ ih =>
    have := (progress _).1 _ _ _ _ h
    exact ⟨by omega, fun hp => ih.2 (this.2.1 hp)⟩

/-- C06 for one call on fresh input: slicing the input at the reported position is safe. -/
theorem C06_consumed_le (c : Bytes) (v : Metainfo) (n : Nat) (h : decode c = .ok (v, n)) :
    n ≤ c.length ∧ (sliceFrom c n : Res Unit Bytes) = .ok (c.drop n) := by
  have := ((progress _).1 _ _ _ _ h).2.1 (by omega)
  exact ⟨this, by simp [sliceFrom, this]⟩

example : DecodeCalls b!"i5e3:abc" 2 0 8 :=
  .call (v := .integer 5) (q := 3) rfl (.call (v := .string b!"abc") rfl (.none 8))

/-! ### C07 -/

/-- C07: the result is determined by the bytes consumed. -/
theorem C07_prefix_determined (c : Bytes) (v : Metainfo) (n : Nat) (suffix : Bytes)
    (h : decode c = .ok (v, n)) (hn : 0 < n) :
    decode (c.take n ++ suffix) = .ok (v, n) := by
  have hle := (C06_consumed_le c v n h).1
  have ha : agree (max (n - 0) 1) c 0 (c.take n ++ suffix) 0 := by
    unfold agree
    have : max (n - 0) 1 = n := by omega
    rw [this]
    simp only [List.drop_zero]
    rw [List.take_append_of_le_length (by simp [hle])]
    simp [List.take_take]
  have := (local_ _).1 _ _ _ _ _ _ h ha
  have h2 := decodeAt_of_fuel (f := 2 * c.length + 2) (c := c.take n ++ suffix) (p := 0)
    (by rw [this]; simp)
  rw [decode, h2, this]
  simp

example : decode b!"l3:abci7eeXYZ" = .ok (.list [.string b!"abc", .integer 7], 10) := rfl

/-! ### C08 -/

/-- C08: the digits after `i` are read exactly; a number of 2^64 or more is an error. -/
theorem C08_integer_exact (ds : Bytes) (x : UInt8) (rest : Bytes) (hne : ds ≠ [])
    (hd : ∀ d ∈ ds, isDigit d = true) (hx : isDigit x = false) :
    (value ds < 2 ^ 64 → decode (105 :: ds ++ x :: rest) = .ok (.integer (value ds), ds.length + 2)) ∧
    (2 ^ 64 ≤ value ds → decode (105 :: ds ++ x :: rest) = .err (.badNumberDecode ds)) := by
  have hdr : (105 :: ds ++ x :: rest).drop (0 + 1) = ds ++ x :: rest := by simp
  constructor
  · intro hv
    unfold decode decodeAt
    rw [decodeF]
    simp only [List.cons_append, List.getElem?_cons_zero, if_true]
    refine parseInteger_ok.mpr ⟨value ds, 0 + 1 + ds.length, getConsecutiveDigits_ok.mpr
      ⟨ds, x, rest, hdr, hne, hd, hx, rfl, hv, rfl⟩, rfl, by omega⟩
  · intro hv
    unfold decode decodeAt
    rw [decodeF]
    simp only [List.cons_append, List.getElem?_cons_zero, if_true]
    unfold parseInteger getConsecutiveDigits
    rw [show (105 :: (ds ++ x :: rest)).drop (0 + 1) = ds ++ x :: rest by simp,
      countDigits_append ds x rest hd hx]
    simp only [slice_of_le (Nat.le_add_right (0 + 1) ds.length)
      (show 0 + 1 + ds.length ≤ (105 :: (ds ++ x :: rest)).length by simp; omega), Res.bind_ok]
    have hs : ((105 :: (ds ++ x :: rest)).take (0 + 1 + ds.length)).drop (0 + 1) = ds := by
      rw [List.drop_take]; simp
    rw [hs]
    simp only [validUtf8_digits _ hd, if_true, parseUsize_eq, hne, if_false]
    rw [if_neg (by omega)]
    rfl

/-- C08: every integer inside any decoded value fits in 64 bits. -/
theorem C08_ints_fit (c : Bytes) (v : Metainfo) (n : Nat) (h : decode c = .ok (v, n)) : IntsFit v := by
  by_cases hn : 0 < n
  · obtain ⟨bs, rest, -, -, hl⟩ := (lenient_of_decode _).1 _ _ _ _ h hn
    exact (lenient_fit hl).1
  · have : v = .nothing := (((progress _).1 _ _ _ _ h).2.2 (by omega)).1
    rw [this]; trivial

example : decode b!"i18446744073709551615e" = .ok (.integer 18446744073709551615, 22) ∧
    decode b!"i18446744073709551616e" = .err (.badNumberDecode b!"18446744073709551616") := ⟨rfl, rfl⟩

/-! ### C09 -/

/-- C09: in any decoded value, every dictionary (at any depth) has one value per key. -/
theorem C09_keys_unique (c : Bytes) (v : Metainfo) (n : Nat) (h : decode c = .ok (v, n)) :
    KeysUnique v := by
  by_cases hn : 0 < n
  · obtain ⟨bs, rest, -, -, hl⟩ := (lenient_of_decode _).1 _ _ _ _ h hn
    exact (lenient_fit hl).2
  · have : v = .nothing := (((progress _).1 _ _ _ _ h).2.2 (by omega)).1
    rw [this]; trivial

/-- C09: a repeated key has the last value given for it. -/
theorem C09_last_wins (d : List (Bytes × BVal)) (doc rest : Bytes) (hdoc : IsBencode (.dict d) doc)
    (hr : Readable (.dict d)) :
    ∃ m, decode (doc ++ rest) = .ok (.dictionary m, doc.length) ∧
      ∀ k, mapGet m k = (lastFor k d).map meaning := by
  have := decodeAt_doc hdoc hr (c := doc ++ rest) (p := 0) (rest := rest) (by simp)
  rw [decode, this]
  refine ⟨meaningEntries [] d, by simp [meaning], ?_⟩
  intro k
  rw [mapGet_meaningEntries]
  simp [mapGet]

example : decode b!"d1:ai1e1:bi5e1:ai2ee" =
    .ok (.dictionary [(b!"a", .integer 2), (b!"b", .integer 5)], 20) := rfl

example : lastFor b!"a" [(b!"a", .int 1), (b!"b", .int 5), (b!"a", .int 2)] = some (.int 2) := rfl

/-! ### C10 -/

/-- C10 for the format: documents are unambiguous and prefix-free. -/
theorem C10_format_prefix_free (v w : BVal) (a b r r' : Bytes) (ha : IsBencode v a)
    (hb : IsBencode w b) (h : a ++ r = b ++ r') : v = w ∧ a = b ∧ r = r' :=
  isBencode_prefix ha hb h

/-- C10 for the encoder, for ASCII text: if two encodings start the same byte stream they encode the
same value (so encodings are injective and prefix-free). Missing: non-ASCII text
(`C10_refuted`). -/
theorem C10_encoder_prefix_free_partial (x y : EVal) (r r' : Bytes) (hx : Encodable x)
    (hy : Encodable y) (h : x.encode ++ r = y.encode ++ r') :
    sem x = sem y ∧ x.encode = y.encode ∧ r = r' :=
  isBencode_prefix (isBencode_encode x hx) (isBencode_encode y hy) h

example : Encodable sampleVal ∧ sampleVal.encode ++ b!"zz" = sampleVal.encode ++ b!"zz" :=
  ⟨sampleVal_encodable, rfl⟩

/-- The full C10 is false: the encoding of the byte string `C3` is a proper prefix of that of the
text "é". -/
theorem C10_refuted : ∃ x y : EVal, sem x ≠ sem y ∧ ∃ r, r ≠ [] ∧ x.encode ++ r = y.encode :=
  ⟨.bytes [0xC3], .str [0xC3, 0xA9], by simp [sem], [0xA9], by simp, rfl⟩

/-- The full C10 is false: two different values, of types `Vec<String>` and `Vec<Vec<u8>>`, have the same encoding. -/
theorem C10_refuted_equal :
    sem (.vec [.str smuggled]) ≠ sem (.vec [.bytes [0xC3, 0xA9, 0xC3, 0xA9, 0xC3, 0xA9], .bytes b!"x"]) ∧
      (EVal.vec [.str smuggled]).encode = (EVal.vec [.bytes [0xC3, 0xA9, 0xC3, 0xA9, 0xC3, 0xA9], .bytes b!"x"]).encode :=
  ⟨by simp [sem, semElems, absent], rfl⟩

/-- C10 for the encoder, for values of one Rust type and all text: if two encodings start the same byte stream they encode the same value.
Missing: values of different types (`C10_refuted_equal`) and `None`s other than as elements of a list, which are written as nothing. -/
theorem C10_same_type_partial (t : Ty) (x y : EVal) (r r' : Bytes) (hx : HasType t x) (hy : HasType t y) (tx : TextOk x) (ty : TextOk y)
    (cx : Complete x) (cy : Complete y) (h : x.encode ++ r = y.encode ++ r') : sem x = sem y ∧ r = r' :=
  encode_prefix t x y r r' hx hy tx ty cx cy h

/-- Non-vacuity, with text that is not ASCII. -/
example : HasType (.map (.vec .str)) (.map [(b!"k", .vec [.str smuggled])]) ∧ TextOk (.map [(b!"k", .vec [.str smuggled])]) ∧
    Complete (.map [(b!"k", .vec [.str smuggled])]) := by
  refine ⟨?_, ?_, ?_⟩
  · intro e he
    rw [List.mem_singleton.mp he]
    intro x hx
    rw [List.mem_singleton.mp hx]
    trivial
  · simp only [TextOk, TextOkEntries, TextOkElems]; decide
  · simp only [Complete, CompleteEntries, CompleteElems]; decide

/-- The condition on `None` is needed: the maps `{"a": None, "b": "c"}` and `{"a": "b", "c": None}` have the same encoding. -/
theorem C10_refuted_none :
    let x := EVal.map [(b!"a", .opt none), (b!"b", .opt (some (.str b!"c")))]
    let y := EVal.map [(b!"a", .opt (some (.str b!"b"))), (b!"c", .opt none)]
    HasType (.map (.opt .str)) x ∧ HasType (.map (.opt .str)) y ∧ x.encode = y.encode ∧ x.encode = b!"d1:a1:b1:ce" := by
  refine ⟨?_, ?_, rfl, rfl⟩ <;> (intro e he; simp only [List.mem_cons, List.not_mem_nil, or_false] at he; rcases he with rfl | rfl <;> trivial)

/-! ### C11 -/

/-- The full C11 is false: `i12x` is accepted as the integer 12, ... -/
theorem C11_refuted_terminator : decode b!"i12x" = .ok (.integer 12, 4) ∧
    ∀ v, ¬ IsBencode v b!"i12x" := by
  refine ⟨rfl, ?_⟩
  intro v h
  generalize hb : b!"i12x" = bs at h
  cases h with
  | int hi =>
    have := congrArg List.getLast? hb
    rw [List.getLast?_append] at this
    simp at this
  | str hs => exact absurd (isStr_append_head hs (r := []) (by rw [List.append_nil, hb])) (by decide)
  | list hl => cases hb
  | dict hl => cases hb

/-- ... `3xabc` as the string `abc`, ... -/
theorem C11_refuted_separator : decode b!"3xabc" = .ok (.string b!"abc", 5) ∧
    ∀ v, ¬ IsBencode v b!"3xabc" := by
  refine ⟨rfl, ?_⟩
  intro v h
  cases h with
  | str hs =>
    obtain ⟨ds, hd, e⟩ := hs
    have := digits_prefix (ds := b!"3") (x := 120) (y := 58) (by decide) (isDigit_of_isDecimal hd)
      (by decide) (by decide) e
    exact absurd this.2.1 (by decide)

/-- ... and `d1:ae` as a dictionary, though `a` has no value. -/
theorem C11_refuted_missing_value : decode b!"d1:ae" = .ok (.dictionary [(b!"a", .nothing)], 5) ∧
    ∀ v, ¬ IsBencode v b!"d1:ae" := ⟨rfl, not_dangling⟩

/-- C11, the provable part: whatever is accepted is in the `Lenient` grammar, i.e. bencode up to
leading zeros, an arbitrary non-digit byte after a number, and dictionary keys without value; lists
and dictionaries are closed, string lengths are honoured, keys are UTF-8. Missing: rejection of
these three deviations. -/
theorem C11_accepts_lenient_partial (c : Bytes) (v : Metainfo) (n : Nat)
    (h : decode c = .ok (v, n)) (hn : 0 < n) : Lenient v (c.take n) := by
  obtain ⟨bs, rest, e, e2, hl⟩ := (lenient_of_decode _).1 _ _ _ _ h hn
  have e3 : n = bs.length := by omega
  have e4 : c = bs ++ rest := by simpa using e
  rw [e3, e4]
  simpa using hl

example : decode sampleBytes = .ok (toMeta sampleDoc, 49) := rfl

/-- Exactly the inputs the decoder accepts, with the value and the number of bytes consumed: those that start with
a document of the lenient grammar. -/
theorem C11_accepts_exactly_partial (c : Bytes) (v : Metainfo) (n : Nat) (hn : 0 < n) :
    decode c = .ok (v, n) ↔ n ≤ c.length ∧ Lenient v (c.take n) := by
  constructor
  · intro h
    exact ⟨(C06_consumed_le c v n h).1, C11_accepts_lenient_partial c v n h hn⟩
  · rintro ⟨hle, hl⟩
    obtain ⟨f, hf⟩ := decode_lenient hl c 0 (c.drop n) (by simp)
    have e : 0 + (c.take n).length = n := by simp [hle]
    rw [e] at hf
    rw [decode, decodeAt_of_fuel (f := f) (by rw [hf]; simp), hf]

/-- Non-vacuity: leading zeros, other separators, a key without value. -/
example : decode b!"d01xa1_be" = .ok (.dictionary [(b!"a", .string b!"b")], 9) ∧
    decode b!"d1:a0:i7ee" = .ok (.dictionary [(b!"a", .nothing), ([], .integer 7)], 10) := ⟨rfl, rfl⟩

/-- Where no value begins nothing is consumed and `Nothing` is returned, without an error. -/
theorem C11_nothing_exactly_partial (c : Bytes) (v : Metainfo) :
    decode c = .ok (v, 0) ↔ v = .nothing ∧ ∀ b ∈ c.head?, ¬ StartsValue b := by
  constructor
  · intro h
    obtain ⟨h1, h2⟩ := ((progress _).1 _ _ _ _ h).2.2 rfl
    refine ⟨h1, ?_⟩
    intro b hb
    exact not_startsValue (p := 0) (by simpa [List.head?_eq_getElem?] using hb) h2
  · rintro ⟨rfl, h⟩
    refine decodeF_noValue ?_ _
    cases c with
    | nil => trivial
    | cons b t => exact noValueAt_of (p := 0) rfl (h b rfl)

example : decode b!"xyz" = .ok (.nothing, 0) ∧ ∀ b ∈ (b!"xyz").head?, ¬ StartsValue b :=
  ⟨rfl, by simp [StartsValue]⟩

end RustBit
