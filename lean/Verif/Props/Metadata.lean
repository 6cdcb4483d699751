/-
Property C77: metadata can be had from a peer that serves it.
-/
import Verif.Props.Honest
import Verif.Spec.Metadata

namespace RustBit
open Spec

theorem newRaw_extension {x : WireMsg} {msg : Message} (h : Handled x msg) {ext : UInt8} {d : List (Bytes × BVal)} {doc data : Bytes}
    (hd : IsBencode (.dict d) doc) (hr : Readable (.dict d)) (hx : x = (20, ext :: (doc ++ data))) :
    msg = ⟨20, x.2.length, .extension ⟨ext, intFor b!"msg_type" d, intFor b!"metadata_size" d,
      ExtensionMessage.extensionsOf (meaning (.dict d)), intFor b!"piece" d, data⟩⟩ := by
  have h2 := h.2
  subst hx
  unfold Message.newRaw Message.contentOf at h2
  rw [if_neg (show ¬ (20 : UInt8) = 2 by decide), if_neg (show ¬ (20 : UInt8) = 5 by decide), if_neg (show ¬ ((20 : UInt8) = 7 ∨ (20 : UInt8) = 6) by decide), if_pos rfl,
    extension_fromBytes_doc ext d doc data hd hr] at h2
  simp only [Res.bind_ok, Res.ok.injEq] at h2
  exact h2.symm

theorem handled_extension (ext : UInt8) {d : List (Bytes × BVal)} {doc : Bytes} (data : Bytes)
    (hd : IsBencode (.dict d) doc) (hr : Readable (.dict d)) (hl : doc.length + data.length < 300000000) :
    ∃ msg, Handled (20, ext :: (doc ++ data)) msg := by
  refine ⟨⟨20, (ext :: (doc ++ data)).length, .extension ⟨ext, intFor b!"msg_type" d, intFor b!"metadata_size" d,
    ExtensionMessage.extensionsOf (meaning (.dict d)), intFor b!"piece" d, data⟩⟩, ?_, ?_⟩
  rotate_left
  · unfold Message.newRaw Message.contentOf
    rw [if_neg (show ¬ (20 : UInt8) = 2 by decide), if_neg (show ¬ (20 : UInt8) = 5 by decide), if_neg (show ¬ ((20 : UInt8) = 7 ∨ (20 : UInt8) = 6) by decide), if_pos rfl,
      extension_fromBytes_doc ext d doc data hd hr]
    rfl
  · simp only [List.length_cons, List.length_append]
    omega

/-- What the code makes of announcements and data messages. -/
theorem announcement_announces {size : Nat} {x : WireMsg} (h : IsAnnouncement size x) (hh : ∃ msg, Handled x msg) :
    ∃ exts, Announces x size exts ∧ ∃ i, mapGet exts b!"ut_metadata" = some i := by
  obtain ⟨d, doc, h1, h2, h3, h4, h5, h6⟩ := h
  obtain ⟨msg, hm⟩ := hh
  have := newRaw_extension hm h1 h2 (data := []) (by simpa using h3)
  rw [this] at hm
  refine ⟨_, ⟨_, _, hm, h5, rfl⟩, ?_⟩
  rw [extensionsOf_mapGet]
  cases hi : intFor b!"ut_metadata" (dictFor b!"m" d) with
  | none => exact absurd hi h6
  | some n => exact ⟨_, rfl⟩

/-- The data of a message. -/
def dataOf (x : WireMsg) : Bytes := ((toMsg x).map Message.contentData).getD []

theorem data_answer {md : Bytes} {i : Nat} {x : WireMsg} {msg : Message} (h : IsData md i x) (hm : Handled x msg) :
    isAnswer .info msg = true ∧ dataOf x = blockOf md i ∧ ∀ size exts, ¬ Announces x size exts := by
  obtain ⟨ext, d, doc, h0, h1, h2, h3, h4, h5, h6⟩ := h
  have e := newRaw_extension hm h1 h2 h3
  refine ⟨by rw [e]; simp [isAnswer, h4], ?_, ?_⟩
  · rw [dataOf, toMsg_handled hm, e]; rfl
  · rintro size exts ⟨len, e', he, hs, -⟩
    have := newRaw_extension he h1 h2 h3
    simp only [Message.mk.injEq, ContentType.extension.injEq, true_and] at this
    rw [this.2, h6] at hs
    simp at hs

theorem announcement_answer {size : Nat} {x : WireMsg} {msg : Message} (h : IsAnnouncement size x) (hm : Handled x msg) :
    isAnswer .info msg = false := by
  obtain ⟨d, doc, h1, h2, h3, h4, -⟩ := h
  have e := newRaw_extension hm h1 h2 (data := []) (by simpa using h3)
  rw [e]; simp [isAnswer, h4]

theorem other_answer {x : WireMsg} {msg : Message} (h : IsOther x) (hm : Handled x msg) :
    isAnswer .info msg = false ∧ ∀ size exts, ¬ Announces x size exts := by
  obtain ⟨ext, d, doc, data, h1, h2, h3, h4, h5⟩ := h
  have e := newRaw_extension hm h1 h2 h3
  refine ⟨by rw [e]; simp [isAnswer, h4], ?_⟩
  rintro size exts ⟨len, e', he, hs, -⟩
  have := newRaw_extension he h1 h2 h3
  simp only [Message.mk.injEq, ContentType.extension.injEq, true_and] at this
  rw [this.2, h5] at hs
  simp at hs

theorem isDataMsg_iff {md : Bytes} {x : WireMsg} : isDataMsg md x = true ↔ ∃ i, IsData md i x := by
  unfold isDataMsg
  simp only [decide_eq_true_eq]

/-- The data messages are the answers. -/
theorem answers_data {md : Bytes} : ∀ (l : List WireMsg), (∀ x ∈ l, ∃ msg, Handled x msg) →
    (∀ x ∈ l, x.1 = 20 → IsAnnouncement md.length x ∨ (∃ i, IsData md i x) ∨ IsOther x) →
    ((l.filterMap toMsg).filter (isAnswer .info)).map Message.contentData = (l.filter (isDataMsg md)).map dataOf := by
  intro l
  induction l with
  | nil => intros; rfl
  | cons x t ih =>
    intro h1 h2
    have ih := ih (fun y hy => h1 y (by simp [hy])) (fun y hy => h2 y (by simp [hy]))
    obtain ⟨msg, hm⟩ := h1 x (by simp)
    rw [List.filterMap_cons, toMsg_handled hm, List.filter_cons, List.filter_cons]
    have no : isAnswer .info msg = false → isAnswer .info msg = isDataMsg md x := by
      intro hf
      rw [hf]
      symm
      rw [Bool.eq_false_iff]
      intro ht
      obtain ⟨i, hi⟩ := isDataMsg_iff.mp ht
      rw [(data_answer hi hm).1] at hf
      cases hf
    have key : isAnswer .info msg = isDataMsg md x := by
      by_cases h20 : x.1 = 20
      · rcases h2 x (by simp) h20 with h | ⟨i, h⟩ | h
        · exact no (announcement_answer h hm)
        · rw [(data_answer h hm).1, isDataMsg_iff.mpr ⟨i, h⟩]
        · exact no (other_answer h hm).1
      · apply no
        unfold isAnswer
        split
        · split
          · rename_i e he
            have h3 := (newRaw_id hm.2).2.2
            rw [he] at h3
            exact absurd (contentOf_extension h3) h20
          · rfl
        · contradiction
    rw [← key]
    by_cases hk : isAnswer .info msg = true
    · rw [if_pos hk, if_pos hk, List.map_cons, List.map_cons, ih]
      congr 1
      rw [dataOf, toMsg_handled hm]
      rfl
    · rw [if_neg hk, if_neg hk, ih]

theorem isBencode_dict_pos {d : List (Bytes × BVal)} {b : Bytes} (h : IsBencode (.dict d) b) : 0 < b.length := by
  cases h
  simp

/-- C77, exactly: a peer opens as in C76; it announces the size of the metadata `md` (any bytes) and an id for metadata messages, and sends its blocks in
order, none of them among the first `r` messages; other extension messages (peer exchange, requests and refusals of metadata) may come at any time.
Messages arrive as in `C35_piece_partial`. Then `get_info` gives what `Info::from_bytes` makes of exactly the bytes `md`.
Missing: peers that choke; split headers and slow messages. -/
theorem C77_bytes_partial (m : Build) {md : Bytes} (hpos : 0 < md.length) (h64 : md.length < 2 ^ 64) {hash : Bytes}
    {net : Net} {rest : Bytes} {ms : Nat → WireMsg} {full : Nat → Nat} {part : Nat → Bytes}
    (h : Opening net hash rest ms full part) {r : Nat} (hr : r ≤ 10)
    (hmsgs : ∀ j, (ms j).1 ≠ 0 ∧ ∃ msg, Handled (ms j) msg)
    (hext : ∀ j, (ms j).1 = 20 → IsAnnouncement md.length (ms j) ∨ (∃ i, IsData md i (ms j)) ∨ IsOther (ms j))
    (h1 : ∃ i, i < r ∧ (ms i).1 = 1) (h2 : ∃ i, i < r ∧ IsAnnouncement md.length (ms i)) (hsoon : BegunBy full part r (26 - 2 * r))
    (hearly : (firstMsgs ms r).filter (isDataMsg md) = []) (T : Nat)
    (hdata : ∀ i, i < (md.length + 16383) / 16384 → ∃ x, ((firstMsgs ms (full T)).filter (isDataMsg md))[i]? = some x ∧ IsData md i x)
    (hpause : ∀ k, (md.length + 16383) / 16384 ≤ ((firstMsgs ms (full k)).filter (isDataMsg md)).length ∨ arrivals net (3 + k) 20 ≠ [])
    (peerId : Bytes) : ∃ f0, ∀ f, f0 ≤ f → getInfo m (.connected net) f peerId hash = (Info.fromBytes md).mapErr .info := by
  -- the announcements
  have hP : ∀ j size exts, Announces (ms j) size exts → size ≠ 0 ∧ (size = md.length ∧ ∃ i, mapGet exts b!"ut_metadata" = some i) := by
    intro j size exts ha
    rcases hext j (announces_20 ha) with hA | ⟨i, hD⟩ | hO
    · obtain ⟨exts', ha', i, hi⟩ := announcement_announces hA (hmsgs j).2
      obtain ⟨rfl, rfl⟩ := announces_unique ha ha'
      exact ⟨by omega, rfl, i, hi⟩
    · obtain ⟨msg, hm⟩ := (hmsgs j).2
      exact absurd ha ((data_answer hD hm).2.2 _ _)
    · obtain ⟨msg, hm⟩ := (hmsgs j).2
      exact absurd ha ((other_answer hO hm).2 _ _)
  obtain ⟨k0, j0, p, e1, e2, e3, e4, e5, e6, e7⟩ := C76_opens_partial h
    (P := fun size exts => size = md.length ∧ ∃ i, mapGet exts b!"ut_metadata" = some i) hr hmsgs hP h1
    (by
      obtain ⟨i, hi, hA⟩ := h2
      obtain ⟨exts, ha, -⟩ := announcement_announces hA (hmsgs i).2
      exact ⟨i, hi, _, _, ha⟩) hsoon peerId
  have hj : ∀ n, j0 ≤ full (k0 + n) := fun n => Nat.le_trans (e2.le_full h.stream) (h.stream.mono (by omega))
  have hans : ∀ n, (((firstMsgs (fun i => ms (j0 + i)) (full (k0 + n) - j0)).filterMap toMsg).filter (isAnswer .info)).map Message.contentData =
      ((firstMsgs ms (full (k0 + n))).filter (isDataMsg md)).map dataOf := by
    intro n
    rw [answers_data (md := md), filter_shift hearly e3 (hj n)]
    · intro x hx
      simp only [firstMsgs, List.mem_map] at hx
      obtain ⟨i, -, rfl⟩ := hx
      exact (hmsgs _).2
    · intro x hx
      simp only [firstMsgs, List.mem_map] at hx
      obtain ⟨i, -, rfl⟩ := hx
      exact hext _
  obtain ⟨f0, hf0⟩ := C35_metadata_partial m net (fun i => ms (j0 + i)) (fun n => full (k0 + n) - j0) (fun n => part (k0 + n)) p md T
    e6 hpos h64 e7 (h.stream.shift e2) e4
    (by
      intro j
      refine ⟨(hmsgs _).1, (hmsgs _).2, ?_⟩
      intro msg e hm he hs
      cases hsz : e.metadataSize with
      | none => exact absurd hsz hs
      | some size =>
        have hid : msg = ⟨20, msg.length, .extension e⟩ := by
          have h3 := newRaw_id hm.2
          rw [he] at h3
          have := contentOf_extension h3.2.2
          obtain ⟨a, b, c⟩ := msg
          simp_all
        exact (hP (j0 + j) size e.extensions ⟨msg.length, e, by rw [← hid]; exact hm, hsz, rfl⟩).2.2)
    (by
      rw [hans]
      obtain ⟨t, ht⟩ := firstMsgs_prefix ms (h.stream.mono (show T ≤ k0 + T by omega))
      rw [← ht, List.filter_append, List.map_append]
      refine List.IsPrefix.trans ?_ (List.prefix_append _ _)
      rw [List.prefix_iff_eq_take]
      apply List.ext_getElem?
      intro i
      simp only [List.length_map, List.length_range, List.getElem?_map, List.getElem?_take]
      by_cases hi : i < (md.length + 16383) / 16384
      · obtain ⟨x, hx, hD⟩ := hdata i hi
        rw [if_pos hi, hx, List.getElem?_range hi]
        have hxm : x ∈ firstMsgs ms (full T) := (List.mem_filter.mp (List.mem_of_getElem? hx)).1
        simp only [firstMsgs, List.mem_map] at hxm
        obtain ⟨j, -, rfl⟩ := hxm
        obtain ⟨msg, hm⟩ := (hmsgs j).2
        simp [(data_answer hD hm).2.1]
      · rw [if_neg hi, List.getElem?_eq_none (by simp; omega)]
        rfl)
    (by
      intro k
      have := congrArg List.length (hans k)
      rw [List.length_map, List.length_map] at this
      rw [this, e2.time, Nat.add_assoc]
      exact hpause (k0 + k))
  refine ⟨f0, fun f hf => ?_⟩
  have := hf0 f hf
  unfold getInfo getInfoRun
  simp only [e1]
  generalize Downloadable.info.download m net f p = q at this
  obtain ⟨q1, q2⟩ := q
  simp only at this
  subst this
  rfl

/-- C77: such a peer serving a document of metadata is enough: `get_info` returns this metadata.
Missing: metadata outside of the conditions of C13; peers that choke; split headers and slow messages. -/
theorem C77_metadata_partial (m : Build) {info : Info} {md : Bytes} (hmd : IsBencode (infoDict info) md) (hfit : InfoFits info)
    (hne : InfoNonempty info) (h64 : md.length < 2 ^ 64) {hash : Bytes}
    {net : Net} {rest : Bytes} {ms : Nat → WireMsg} {full : Nat → Nat} {part : Nat → Bytes}
    (h : Opening net hash rest ms full part) {r : Nat} (hr : r ≤ 10)
    (hmsgs : ∀ j, (ms j).1 ≠ 0 ∧ ∃ msg, Handled (ms j) msg)
    (hext : ∀ j, (ms j).1 = 20 → IsAnnouncement md.length (ms j) ∨ (∃ i, IsData md i (ms j)) ∨ IsOther (ms j))
    (h1 : ∃ i, i < r ∧ (ms i).1 = 1) (h2 : ∃ i, i < r ∧ IsAnnouncement md.length (ms i)) (hsoon : BegunBy full part r (26 - 2 * r))
    (hearly : (firstMsgs ms r).filter (isDataMsg md) = []) (T : Nat)
    (hdata : ∀ i, i < (md.length + 16383) / 16384 → ∃ x, ((firstMsgs ms (full T)).filter (isDataMsg md))[i]? = some x ∧ IsData md i x)
    (hpause : ∀ k, (md.length + 16383) / 16384 ≤ ((firstMsgs ms (full k)).filter (isDataMsg md)).length ∨ arrivals net (3 + k) 20 ≠ [])
    (peerId : Bytes) : ∃ f0, ∀ f, f0 ≤ f → getInfo m (.connected net) f peerId hash = .ok info := by
  have hfb : Info.fromBytes md = .ok info := by simpa using fromBytes_doc info md [] hmd hfit hne
  have := C77_bytes_partial m (isBencode_dict_pos hmd) h64 h hr hmsgs hext h1 h2 hsoon hearly T hdata hpause peerId
  rwa [hfb] at this

/-! ### A peer that serves metadata -/

/-- The dictionary of an extension handshake. -/
def announceDict (n : Nat) : List (Bytes × BVal) := [(b!"m", .dict [(b!"ut_metadata", .int 3)]), (b!"metadata_size", .int n)]

def announceDoc (n : Nat) : Bytes := b!"d1:md11:ut_metadatai3ee13:metadata_size" ++ encUsize n ++ b!"e"

theorem isBencode_announce (n : Nat) : IsBencode (.dict (announceDict n)) (announceDoc n) := by
  have h3 : IsBencode (.int ((3 : Nat) : Int)) (encUsize 3) := isBencode_encUsize 3
  have hn := isBencode_encUsize n
  have k1 : IsStr b!"m" (encStr b!"m") := isStr_encStr _ (ascii_of_lit rfl)
  have k2 : IsStr b!"ut_metadata" (encStr b!"ut_metadata") := isStr_encStr _ (ascii_of_lit rfl)
  have k3 : IsStr b!"metadata_size" (encStr b!"metadata_size") := isStr_encStr _ (ascii_of_lit rfl)
  have hm := IsBencode.dict (IsEntries.cons k2 h3 .nil)
  have := IsBencode.dict (IsEntries.cons k1 hm (IsEntries.cons k3 hn .nil))
  have e : announceDoc n = 100 :: (encStr b!"m" ++ (100 :: (encStr b!"ut_metadata" ++ encUsize 3 ++ []) ++ [101]) ++
      (encStr b!"metadata_size" ++ encUsize n ++ [])) ++ [101] := by
    have e1 : encStr b!"m" = b!"1:m" := rfl
    have e2 : encStr b!"ut_metadata" = b!"11:ut_metadata" := rfl
    have e3 : encStr b!"metadata_size" = b!"13:metadata_size" := rfl
    have e4 : encUsize 3 = b!"i3e" := rfl
    rw [e1, e2, e3, e4, announceDoc]
    simp
  rw [e]
  exact this

/-- The dictionary of a data message. -/
def dataDict (i total : Nat) : List (Bytes × BVal) := [(b!"msg_type", .int 1), (b!"piece", .int i), (b!"total_size", .int total)]

def dataDoc (i total : Nat) : Bytes := b!"d8:msg_typei1e5:piece" ++ encUsize i ++ b!"10:total_size" ++ encUsize total ++ b!"e"

theorem isBencode_data (i total : Nat) : IsBencode (.dict (dataDict i total)) (dataDoc i total) := by
  have h1 : IsBencode (.int ((1 : Nat) : Int)) (encUsize 1) := isBencode_encUsize 1
  have hi := isBencode_encUsize i
  have ht := isBencode_encUsize total
  have k1 : IsStr b!"msg_type" (encStr b!"msg_type") := isStr_encStr _ (ascii_of_lit rfl)
  have k2 : IsStr b!"piece" (encStr b!"piece") := isStr_encStr _ (ascii_of_lit rfl)
  have k3 : IsStr b!"total_size" (encStr b!"total_size") := isStr_encStr _ (ascii_of_lit rfl)
  have := IsBencode.dict (IsEntries.cons k1 h1 (IsEntries.cons k2 hi (IsEntries.cons k3 ht .nil)))
  have e : dataDoc i total = 100 :: (encStr b!"msg_type" ++ encUsize 1 ++ (encStr b!"piece" ++ encUsize i ++
      (encStr b!"total_size" ++ encUsize total ++ []))) ++ [101] := by
    have e1 : encStr b!"msg_type" = b!"8:msg_type" := rfl
    have e2 : encStr b!"piece" = b!"5:piece" := rfl
    have e3 : encStr b!"total_size" = b!"10:total_size" := rfl
    have e4 : encUsize 1 = b!"i1e" := rfl
    rw [e1, e2, e3, e4, dataDoc]
    simp
  rw [e]
  exact this

def announceMsg (n : Nat) : WireMsg := (20, 0 :: announceDoc n)
def dataMsg (md : Bytes) (i : Nat) : WireMsg := (20, 3 :: (dataDoc i md.length ++ blockOf md i))

theorem encUsize_length {n : Nat} (h : n < 2 ^ 64) : (encUsize n).length ≤ 22 := by
  have := decimal_length_lt 20 n (by omega) (by omega)
  simp [encUsize]
  omega

theorem announceMsg_ok {n : Nat} (h : n < 2 ^ 64) : IsAnnouncement n (announceMsg n) ∧ ∃ msg, Handled (announceMsg n) msg := by
  have hr : Readable (.dict (announceDict n)) := by
    simp only [announceDict, Readable, ReadableEntries]
    refine ⟨by decide, by decide, ⟨by decide, by decide, by decide, trivial⟩, by decide, by decide, ⟨by omega, by omega⟩, trivial⟩
  refine ⟨⟨announceDict n, announceDoc n, isBencode_announce n, hr, rfl, rfl, ?_, by show some (3 : Int).toNat ≠ none; simp⟩, ?_⟩
  · show some (n : Int).toNat = some n
    simp
  · have := encUsize_length h
    have := handled_extension 0 [] (isBencode_announce n) hr (by simp only [announceDoc, List.length_append, List.length_cons, List.length_nil]; omega)
    rw [List.append_nil] at this
    exact this

theorem dataMsg_ok {md : Bytes} (h : md.length < 2 ^ 64) {i : Nat} (hi : i < 2 ^ 64) : IsData md i (dataMsg md i) ∧ ∃ msg, Handled (dataMsg md i) msg := by
  have hr : Readable (.dict (dataDict i md.length)) := by
    simp only [dataDict, Readable, ReadableEntries]
    refine ⟨by decide, by decide, by decide, by decide, by decide, ⟨by omega, by omega⟩, by decide, by decide, ⟨by omega, by omega⟩, trivial⟩
  refine ⟨⟨3, dataDict i md.length, dataDoc i md.length, by decide, isBencode_data i _, hr, rfl, rfl, ?_, rfl⟩, ?_⟩
  · show some (i : Int).toNat = some i
    simp
  · have h1 := encUsize_length h
    have h2 := encUsize_length hi
    have h3 : (blockOf md i).length ≤ 16384 := by simp [blockOf]; omega
    exact handled_extension 3 (blockOf md i) (isBencode_data i _) hr
      (by simp only [dataDoc, List.length_append, List.length_cons, List.length_nil]; omega)

/-- The blocks of metadata, in order. -/
def dataMsgs (md : Bytes) : List WireMsg := (List.range ((md.length + 16383) / 16384)).map (dataMsg md)

/-- A request for metadata. -/
def askMsg (i : Nat) : WireMsg := (20, 3 :: (b!"d8:msg_typei0e5:piece" ++ encUsize i ++ b!"e"))

theorem isBencode_ask (i : Nat) : IsBencode (.dict [(b!"msg_type", .int 0), (b!"piece", .int i)]) (b!"d8:msg_typei0e5:piece" ++ encUsize i ++ b!"e") := by
  have h1 : IsBencode (.int ((0 : Nat) : Int)) (encUsize 0) := isBencode_encUsize 0
  have k1 : IsStr b!"msg_type" (encStr b!"msg_type") := isStr_encStr _ (ascii_of_lit rfl)
  have k2 : IsStr b!"piece" (encStr b!"piece") := isStr_encStr _ (ascii_of_lit rfl)
  have := IsBencode.dict (IsEntries.cons k1 h1 (IsEntries.cons k2 (isBencode_encUsize i) .nil))
  have e : b!"d8:msg_typei0e5:piece" ++ encUsize i ++ b!"e" = 100 :: (encStr b!"msg_type" ++ encUsize 0 ++ (encStr b!"piece" ++ encUsize i ++ [])) ++ [101] := by
    have e1 : encStr b!"msg_type" = b!"8:msg_type" := rfl
    have e2 : encStr b!"piece" = b!"5:piece" := rfl
    have e4 : encUsize 0 = b!"i0e" := rfl
    rw [e1, e2, e4]
    simp
  rw [e]
  exact this

theorem askMsg_ok {i : Nat} (h : i < 2 ^ 64) : IsOther (askMsg i) ∧ ∃ msg, Handled (askMsg i) msg := by
  have hr : Readable (.dict [(b!"msg_type", .int 0), (b!"piece", .int i)]) := by
    simp only [Readable, ReadableEntries]
    exact ⟨by decide, by decide, by decide, by decide, by decide, ⟨by omega, by omega⟩, trivial⟩
  refine ⟨⟨3, _, _, [], isBencode_ask i, hr, ?_, ?_, rfl⟩, ?_⟩
  · rw [List.append_nil]; rfl
  · show some (0 : Int).toNat ≠ some 1
    decide
  · have h1 := encUsize_length h
    have := handled_extension 3 [] (isBencode_ask i) hr (by simp only [List.length_append, List.length_cons, List.length_nil]; omega)
    rwa [List.append_nil] at this

/-- A peer that sends an extension handshake, an unchoke, a request for metadata of its own, and the metadata meets the hypotheses of
`C77_bytes_partial`, for all bytes. -/
theorem bytes_served (m : Build) {md : Bytes} (hpos : 0 < md.length) (h64 : md.length < 2 ^ 64) {hash : Bytes} (hhash : hash.length = 20) (peerId : Bytes) :
    ∃ f0, ∀ f, f0 ≤ f → getInfo m (.connected (promptPeer hash (announceMsg md.length :: (1, []) :: askMsg 0 :: dataMsgs md))) f peerId hash =
      (Info.fromBytes md).mapErr .info := by
  generalize hL : announceMsg md.length :: (1, []) :: askMsg 0 :: dataMsgs md = L
  have hmem : ∀ x ∈ dataMsgs md, ∃ i, IsData md i x ∧ ∃ msg, Handled x msg := by
    intro x hx
    simp only [dataMsgs, List.mem_map, List.mem_range] at hx
    obtain ⟨i, hi, rfl⟩ := hx
    exact ⟨i, dataMsg_ok h64 (by omega)⟩
  have hfd : (dataMsgs md).filter (isDataMsg md) = dataMsgs md := by
    rw [List.filter_eq_self]
    intro x hx
    obtain ⟨i, hD, -⟩ := hmem x hx
    exact isDataMsg_iff.mpr ⟨i, hD⟩
  have hno1 : ¬ isDataMsg md (announceMsg md.length) = true := by
    intro ht
    obtain ⟨i, hi⟩ := isDataMsg_iff.mp ht
    obtain ⟨hA, msg, hm⟩ := announceMsg_ok h64
    have := announcement_answer hA hm
    rw [(data_answer hi hm).1] at this
    cases this
  have hno2 : ¬ isDataMsg md (1, []) = true := by
    intro ht
    obtain ⟨i, ext, d, doc, -, -, -, hx, -⟩ := isDataMsg_iff.mp ht
    simp at hx
  have hno3 : ¬ isDataMsg md (askMsg 0) = true := by
    intro ht
    obtain ⟨i, hi⟩ := isDataMsg_iff.mp ht
    obtain ⟨hA, msg, hm⟩ := askMsg_ok (i := 0) (by decide)
    have := (other_answer hA hm).1
    rw [(data_answer hi hm).1] at this
    cases this
  have hfilter : L.filter (isDataMsg md) = dataMsgs md := by
    rw [← hL, List.filter_cons, if_neg hno1, List.filter_cons, if_neg hno2, List.filter_cons, if_neg hno3, hfd]
  have h0 : ofList L 0 = announceMsg md.length := by rw [← hL]; rfl
  have h1 : ofList L 1 = (1, []) := by rw [← hL]; rfl
  have hlen2 : 2 ≤ L.length := by rw [← hL]; simp
  exact C77_bytes_partial m hpos h64 (promptPeer_opening (hash := hash) hhash L)
    (r := 2) (by omega)
    (by
      refine ofList_mem (P := fun x => x.1 ≠ 0 ∧ ∃ msg, Handled x msg) ?_ ⟨by simp, _, unchoke_handled⟩
      rw [← hL]
      intro x hx
      simp only [List.mem_cons] at hx
      rcases hx with rfl | rfl | rfl | hx
      · exact ⟨by simp [announceMsg], (announceMsg_ok h64).2⟩
      · exact ⟨by simp, _, unchoke_handled⟩
      · exact ⟨by simp [askMsg], (askMsg_ok (by decide)).2⟩
      · obtain ⟨i, hD, hm⟩ := hmem x hx
        obtain ⟨ext, d, doc, -, -, -, hx', -⟩ := hD
        exact ⟨by rw [hx']; simp, hm⟩)
    (by
      refine ofList_mem (P := fun x => x.1 = 20 → IsAnnouncement md.length x ∨ (∃ i, IsData md i x) ∨ IsOther x) ?_ (by simp)
      rw [← hL]
      intro x hx h20
      simp only [List.mem_cons] at hx
      rcases hx with rfl | rfl | rfl | hx
      · exact .inl (announceMsg_ok h64).1
      · simp at h20
      · exact .inr (.inr (askMsg_ok (by decide)).1)
      · obtain ⟨i, hD, -⟩ := hmem x hx
        exact .inr (.inl ⟨i, hD⟩))
    ⟨1, by omega, by rw [h1]⟩ ⟨0, by omega, by rw [h0]; exact (announceMsg_ok h64).1⟩ (.inl hlen2)
    (by
      rw [firstMsgs_ofList L 2 hlen2, ← hL]
      show (([announceMsg md.length, (1, [])] : List WireMsg)).filter (isDataMsg md) = []
      rw [List.filter_cons, if_neg hno1, List.filter_cons, if_neg hno2]
      rfl) 0
    (by
      intro i hi
      rw [firstMsgs_all, hfilter]
      refine ⟨dataMsg md i, ?_, (dataMsg_ok h64 (by omega)).1⟩
      rw [dataMsgs, List.getElem?_map, List.getElem?_range hi]
      rfl)
    (by
      intro k
      left
      rw [firstMsgs_all, hfilter]
      simp [dataMsgs])
    peerId

/-- Such a peer can serve every metadata of C13. -/
theorem metadata_serves (m : Build) {info : Info} {md : Bytes} (hmd : IsBencode (infoDict info) md) (hfit : InfoFits info)
    (hne : InfoNonempty info) (h64 : md.length < 2 ^ 64) {hash : Bytes} (hhash : hash.length = 20) (peerId : Bytes) :
    ∃ net f, getInfo m (.connected net) f peerId hash = .ok info := by
  have hfb : Info.fromBytes md = .ok info := by simpa using fromBytes_doc info md [] hmd hfit hne
  obtain ⟨f0, h⟩ := bytes_served m (isBencode_dict_pos hmd) h64 hhash peerId
  rw [hfb] at h
  exact ⟨_, f0, h f0 (Nat.le_refl _)⟩

/-- Valid metadata with a further key that has a negative number. -/
def oddMetadata : Bytes := b!"d6:lengthi1e4:name1:a12:piece lengthi16384e6:pieces20:AAAAAAAAAAAAAAAAAAAA7:privatei-1ee"

/-- Valid metadata with a further key that has a list with an empty text. -/
def listMetadata : Bytes := b!"d6:lengthi1e4:name1:a12:piece lengthi16384e6:pieces20:AAAAAAAAAAAAAAAAAAAA4:tagsl0:ee"

/-- The full C77 is false: there is valid metadata that is refused, and valid metadata on which the client works for ever, although a peer serves it
without fault. -/
theorem C77_refuted (m : Build) (hash peerId : Bytes) (hhash : hash.length = 20) :
    (∃ d, IsBencode (.dict d) oddMetadata ∧ (BVal.dict d).Canonical) ∧ (∃ d, IsBencode (.dict d) listMetadata ∧ (BVal.dict d).Canonical) ∧
    (∃ e f0, ∀ f, f0 ≤ f → getInfo m (.connected (promptPeer hash
      (announceMsg oddMetadata.length :: (1, []) :: askMsg 0 :: dataMsgs oddMetadata))) f peerId hash = .err e) ∧
    ∃ f0, ∀ f, f0 ≤ f → getInfo m (.connected (promptPeer hash
      (announceMsg listMetadata.length :: (1, []) :: askMsg 0 :: dataMsgs listMetadata))) f peerId hash = .hang := by
  have k : ∀ n : Nat, IsBencode (.int n) (encUsize n) := isBencode_encUsize
  have k0 : IsStr b!"length" (encStr b!"length") := isStr_encStr _ (ascii_of_lit rfl)
  have k1 : IsStr b!"name" (encStr b!"name") := isStr_encStr _ (ascii_of_lit rfl)
  have k2 : IsStr b!"piece length" (encStr b!"piece length") := isStr_encStr _ (ascii_of_lit rfl)
  have k3 : IsStr b!"pieces" (encStr b!"pieces") := isStr_encStr _ (ascii_of_lit rfl)
  have k4 : IsStr b!"private" (encStr b!"private") := isStr_encStr _ (ascii_of_lit rfl)
  have k5 : IsStr b!"tags" (encStr b!"tags") := isStr_encStr _ (ascii_of_lit rfl)
  have v1 : IsStr b!"a" (encStr b!"a") := isStr_encStr _ (ascii_of_lit rfl)
  have v3 : IsStr (List.replicate 20 65) (encStr (List.replicate 20 65)) := isStr_encStr _ (ascii_of_lit rfl)
  have v5 : IsStr [] (encStr []) := isStr_encStr _ (ascii_of_lit rfl)
  refine ⟨?_, ?_, ?_, ?_⟩
  · have v4 : IsBencode (.int (-1)) b!"i-1e" := .int (.neg (n := 1) (by decide) (isDecimal_decimal 1))
    exact ⟨_, IsBencode.dict (IsEntries.cons k0 (k 1) (IsEntries.cons k1 (.str v1) (IsEntries.cons k2 (k 16384) (IsEntries.cons k3 (.str v3)
      (IsEntries.cons k4 v4 .nil))))), by simp only [BVal.Canonical, CanonicalEntries, and_true]; decide⟩
  · exact ⟨_, IsBencode.dict (IsEntries.cons k0 (k 1) (IsEntries.cons k1 (.str v1) (IsEntries.cons k2 (k 16384) (IsEntries.cons k3 (.str v3)
      (IsEntries.cons k5 (.list (.cons (.str v5) .nil)) .nil))))), by simp only [BVal.Canonical, CanonicalEntries, CanonicalElems, and_true]; decide⟩
  · obtain ⟨f0, h⟩ := bytes_served m (md := oddMetadata) (by decide) (by decide) hhash peerId
    exact ⟨_, f0, fun f hf => (h f hf).trans (by decide +kernel : (Info.fromBytes oddMetadata).mapErr .info = .err (.info (.decoderError (.badNumberDecode [])) : PeerManagerError))⟩
  · obtain ⟨f0, h⟩ := bytes_served m (md := listMetadata) (by decide) (by decide) hhash peerId
    exact ⟨f0, fun f hf => (h f hf).trans (by decide +kernel : (Info.fromBytes listMetadata).mapErr PeerManagerError.info = .hang)⟩

end RustBit
