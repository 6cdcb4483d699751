/-
C67 for all tracker URLs; C99: what is sent to an HTTP tracker besides the URL, and what is made of its answer.
-/
import Verif.Props.Tracker

namespace RustBit
open Spec

/-! ### C67: URLs with a query or a fragment -/

theorem first_occurrence {c : UInt8} {s : Bytes} (h : c ∈ s) : ∃ pre post, s = pre ++ c :: post ∧ c ∉ pre := by
  induction s with
  | nil => cases h
  | cons b t ih =>
    by_cases e : b = c
    · exact ⟨[], t, by rw [e]; rfl, by simp⟩
    · obtain ⟨pre, post, rfl, hn⟩ := ih ((List.mem_cons.mp h).resolve_left (fun x => e x.symm))
      exact ⟨b :: pre, post, rfl, by simp only [List.mem_cons, not_or]; exact ⟨fun x => e x.symm, hn⟩⟩

theorem splitAll_ne (c : UInt8) (s : Bytes) : splitAll c s ≠ [] := by
  cases s with
  | nil => simp [splitAll]
  | cons b t =>
    rw [splitAll]
    split
    · simp
    · split <;> simp

/-- Splitting what is written one after the other: the last part of the one and the first of the other become one part. -/
theorem splitAll_two (c : UInt8) (q t : Bytes) (p : Bytes) (ps : List Bytes) (ht : splitAll c t = p :: ps) :
    ∃ ini last, splitAll c q = ini ++ [last] ∧ splitAll c (q ++ t) = ini ++ (last ++ p) :: ps := by
  induction q with
  | nil => exact ⟨[], [], rfl, ht⟩
  | cons b q ih =>
    obtain ⟨ini, last, h1, h2⟩ := ih
    by_cases e : b = c
    · exact ⟨[] :: ini, last, by rw [splitAll, if_pos e, h1]; rfl, by rw [List.cons_append, splitAll, if_pos e, h2]; rfl⟩
    · cases ini with
      | nil =>
        refine ⟨[], b :: last, ?_, ?_⟩
        · rw [splitAll, if_neg e, h1]; rfl
        · rw [List.cons_append, splitAll, if_neg e, h2]; rfl
      | cons x ini =>
        refine ⟨(b :: x) :: ini, last, ?_, ?_⟩
        · rw [splitAll, if_neg e, h1]; rfl
        · rw [List.cons_append, splitAll, if_neg e, h2]; rfl

/-- A question mark is never part of an escape. -/
theorem percentDecode_question {s : Bytes} (h : (63 : UInt8) ∈ s) : 63 ∈ percentDecode s := by
  induction s using percentDecode.induct with
  | case1 x y t hi lo h1 h2 ih =>
    rw [percentDecode, h1, h2]
    simp only [List.mem_cons] at h ⊢
    right
    rcases h with h | h | h | h
    · exact absurd h (by decide)
    · rw [← h] at h2; cases h2
    · rw [← h] at h1; cases h1
    · exact ih h
  | case2 x y t hno ih =>
    rw [percentDecode]
    split
    · rename_i a b h1 h2
      exact absurd h2 (hno _ _ h1)
    · right
      exact ih ((List.mem_cons.mp h).resolve_left (by decide))
  | case3 b t hno ih =>
    rw [percentDecode]
    · rcases List.mem_cons.mp h with h | h
      · rw [h]; exact .head _
      · exact .tail _ (ih h)
    · exact hno
  | case4 => cases h

/-- C67, for all URLs: if the URL of the tracker does not itself have a parameter `info_hash`, the tracker is told the hash just if the URL has no
query and no fragment. So the call is useless for every tracker with e.g. a passkey in the query. -/
theorem C67_info_hash_exactly_partial (url : TrackerUrl) (infoHash peerId : Bytes) (hp : ∀ b ∈ peerId, IsAlnum b)
    (hno : b!"info_hash" ∉ (queryParams url.asStr).map Prod.fst) :
    b!"info_hash" ∈ (queryParams (announceUrl url infoHash peerId)).map Prod.fst ↔ c!"?" ∉ url.asStr ∧ c!"#" ∉ url.asStr := by
  have hsafe := (C62_safe infoHash).2.1
  have hid : ∀ b ∈ peerId, b ≠ 38 ∧ b ≠ 35 := fun b hb =>
    byte_forall (p := fun b => IsAlnum b → b ≠ 38 ∧ b ≠ 35) (by simp only [IsAlnum]; decide +kernel) b (hp b hb)
  constructor
  · intro h
    have hf : c!"#" ∉ url.asStr := by
      intro hm
      obtain ⟨pre, post, e, hn⟩ := first_occurrence hm
      have e2 : queryParams (announceUrl url infoHash peerId) = queryParams url.asStr := by
        unfold queryParams announceUrl
        rw [e, cutAt_append _ _ _ hn]
        simp only [List.append_assoc, List.cons_append]
        rw [cutAt_append _ _ _ hn]
      rw [e2] at h
      exact hno h
    refine ⟨fun hm => ?_, hf⟩
    obtain ⟨pre, q, e, hn⟩ := first_occurrence hm
    have e1 : announceUrl url infoHash peerId = pre ++ c!"?" :: (q ++ (b!"?info_hash" ++ c!"=" :: percentEncode infoHash ++
        c!"&" :: (b!"peer_id" ++ c!"=" :: peerId))) := by
      simp [announceUrl, e]
    have h1 : c!"#" ∉ announceUrl url infoHash peerId := by
      rw [e1]
      rw [e] at hf
      simp only [List.mem_append, List.mem_cons, not_or] at hf ⊢
      refine ⟨hf.1, by decide, hf.2.2, ⟨by decide, by decide, hsafe _ (by decide)⟩, by decide, by decide, by decide, ?_⟩
      intro hm; exact (hid _ hm).2 rfl
    have h2 : splitAll 38 (b!"?info_hash" ++ c!"=" :: percentEncode infoHash ++ c!"&" :: (b!"peer_id" ++ c!"=" :: peerId)) =
        [b!"?info_hash" ++ c!"=" :: percentEncode infoHash, b!"peer_id" ++ c!"=" :: peerId] := by
      rw [splitAll_append, splitAll_none]
      · simp only [List.mem_append, List.mem_cons, not_or]
        refine ⟨by decide, by decide, ?_⟩
        intro hm; exact (hid _ hm).1 rfl
      · simp only [List.mem_append, List.mem_cons, not_or]
        exact ⟨by decide, by decide, hsafe _ (by decide)⟩
    obtain ⟨ini, last, h3, h4⟩ := splitAll_two 38 q _ _ _ h2
    unfold queryParams at h hno
    rw [cutAt_none _ _ h1, e1] at h
    rw [cutAt_none _ _ hf, e] at hno
    simp only [] at h hno
    rw [cutAt_append _ _ _ hn] at h hno
    simp only [h3, h4, List.map_append, List.map_cons, List.map_nil, List.mem_append, List.mem_cons, not_or, List.not_mem_nil] at h hno
    rcases h with h | h | h | h
    · exact hno.1 h
    · by_cases hq : (61 : UInt8) ∈ last
      · obtain ⟨a, b, rfl, ha⟩ := first_occurrence hq
        rw [List.append_assoc, List.cons_append, cutAt_append _ _ _ ha] at h
        rw [cutAt_append _ _ _ ha] at hno
        exact hno.2.1 h
      · rw [← List.append_assoc, cutAt_append _ _ _ (by simp only [List.mem_append, not_or]; exact ⟨hq, by decide⟩)] at h
        simp only [] at h
        have : (63 : UInt8) ∈ b!"info_hash" := by
          rw [h]
          exact percentDecode_question (List.mem_append_right _ (by decide))
        exact absurd this (by decide)
    · rw [cutAt_append _ b!"peer_id" _ (by decide)] at h
      have d2 : percentDecode b!"peer_id" = b!"peer_id" := by simp [percentDecode]
      rw [d2] at h
      exact absurd h (by decide)
    · exact h
  · rintro ⟨hq, hf⟩
    rw [(C67_announce_url_partial url infoHash peerId hq hf hp).1]
    exact .head _

/-- Non-vacuity: a passkey. -/
example : b!"info_hash" ∉ (queryParams b!"http://t/a?passkey=1").map Prod.fst ∧ c!"?" ∈ b!"http://t/a?passkey=1" := by
  refine ⟨?_, by decide⟩
  simp [queryParams, cutAt, splitAll, percentDecode]

/-! ### C99 -/

/-- C99: of an answer without coding, or with the coding `gzip`, whose status is below 400 and whose document the decoder supports, the peers are
found. Missing: the other codings the client says it accepts (refuted). -/
theorem C99_answer_partial (gunzip : Bytes → Option Bytes) (server : Bytes → Option HttpAnswer) (infoHash peerId : Bytes) (url : TrackerUrl)
    (a : HttpAnswer) (d : List (Bytes × BVal)) (doc rest peers : Bytes) (ha : server (announceUrl url infoHash peerId) = some a) (hs : a.status < 400)
    (hc : (a.coding = none ∧ a.raw = doc ++ rest) ∨ (a.coding = some b!"gzip" ∧ gunzip a.raw = some (doc ++ rest)))
    (hdoc : IsBencode (.dict d) doc) (hr : Spec.Readable (.dict d)) (hp : lastFor b!"peers" d = some (.str peers)) :
    tcpCall (fun u => ureqGet gunzip (server u)) infoHash peerId url = .ok peers := by
  refine C67_answer_partial _ infoHash peerId url d doc rest peers hdoc hr hp ?_
  rw [ha, ureqGet, if_neg (by omega)]
  rcases hc with ⟨h1, h2⟩ | ⟨h1, h2⟩
  · rw [if_neg (by rw [h1]; simp), h2]
  · rw [if_pos h1, h2]

/-- Non-vacuity: a server that answers with the document `d5:peers6:abcdefe`, packed with a code that puts a byte in front. -/
example : tcpCall (fun u => ureqGet (fun x => some (x.drop 1)) ((fun _ => some ⟨200, some b!"gzip", 0x1f :: b!"d5:peers6:abcdefe"⟩) u)) [] []
    ⟨[], none, none, []⟩ = .ok b!"abcdef" := by decide +kernel

/-- C99: an answer with a status from 400 on, or none in time, is an error of this lookup, whatever it contains (e.g. a reason for the failure). -/
theorem C99_failure (gunzip : Bytes → Option Bytes) (server : Bytes → Option HttpAnswer) (infoHash peerId : Bytes) (url : TrackerUrl)
    (h : ∀ a, server (announceUrl url infoHash peerId) = some a → 400 ≤ a.status) :
    tcpCall (fun u => ureqGet gunzip (server u)) infoHash peerId url = .err (.connection (announceUrl url infoHash peerId)) := by
  unfold tcpCall
  cases hs : server (announceUrl url infoHash peerId) with
  | none => simp only [hs, ureqGet]
  | some a => simp only [hs, ureqGet, if_pos (h a hs)]

example : ∀ a, (fun _ : Bytes => some (⟨404, none, b!"d14:failure reason1:xe"⟩ : HttpAnswer)) [] = some a → 400 ≤ a.status := by
  intro a h; cases h; decide

/-- C99: an answer whose body cannot be unpacked is an error of this lookup. -/
theorem C99_unreadable (gunzip : Bytes → Option Bytes) (server : Bytes → Option HttpAnswer) (infoHash peerId : Bytes) (url : TrackerUrl)
    (a : HttpAnswer) (ha : server (announceUrl url infoHash peerId) = some a) (hs : a.status < 400) (hc : a.coding = some b!"gzip")
    (hg : gunzip a.raw = none) : tcpCall (fun u => ureqGet gunzip (server u)) infoHash peerId url = .err .bufferReading := by
  unfold tcpCall
  have : ureqGet gunzip (some a) = .broken := by
    rw [ureqGet, if_neg (by omega), if_pos hc, hg]
  simp only [ha, this]

example : tcpCall (fun u => ureqGet (fun _ => none) ((fun _ => some ⟨200, some b!"gzip", b!"d5:peers6:abcdefe"⟩) u)) [] []
    ⟨[], none, none, []⟩ = .err .bufferReading := by decide +kernel

/-- The full C99 is false: the client says that it accepts the coding `deflate`, but an answer in it is not understood. (Every stream of this coding with
the usual window of 32768 bytes begins with the byte 0x78, RFC 1950.) -/
theorem C99_refuted_coding (gunzip : Bytes → Option Bytes) (server : Bytes → Option HttpAnswer) (infoHash peerId : Bytes) (url : TrackerUrl)
    (status : Nat) (t : Bytes) (hs : status < 400) (ha : server (announceUrl url infoHash peerId) = some ⟨status, some b!"deflate", 0x78 :: t⟩) :
    (∃ v, (b!"Accept-Encoding", v) ∈ trackerHeaders ∧ b!"deflate" ∈ codingsOf v) ∧
    ∃ e, tcpCall (fun u => ureqGet gunzip (server u)) infoHash peerId url = .err e := by
  refine ⟨⟨_, .head _, by decide⟩, ?_⟩
  unfold tcpCall
  simp only [ha]
  rw [ureqGet, if_neg (show ¬ 400 ≤ status by omega), if_neg (show ¬ (some b!"deflate" = some b!"gzip") by decide)]
  have : Decoder.decode (0x78 :: t) = .ok (.nothing, 0) := by
    unfold Decoder.decode Decoder.decodeAt Decoder.decodeF
    rfl
  simp only [this]
  exact ⟨_, rfl⟩

/-- ... and `br`, for which the body is taken as it was transferred, exactly as if it had not been packed. -/
theorem C99_refuted_brotli (gunzip : Bytes → Option Bytes) (status : Nat) (raw : Bytes) :
    (∃ v, (b!"Accept-Encoding", v) ∈ trackerHeaders ∧ b!"br" ∈ codingsOf v) ∧
    ureqGet gunzip (some ⟨status, some b!"br", raw⟩) = ureqGet gunzip (some ⟨status, none, raw⟩) := by
  refine ⟨⟨_, .head _, by decide⟩, ?_⟩
  rw [ureqGet, ureqGet, if_neg (by decide : ¬ (some b!"br" = some b!"gzip")), if_neg (by decide : ¬ (none = some b!"gzip"))]

/-- ... and the request names a host: exactly one, and the tracker's own just if that is 192.168.1.2 at the default port. -/
theorem C99_refuted_host (host auth : Bytes) (port : Option Nat) (ha : IsAuthority host port auth) :
    (trackerHeaders.filter fun x => x.1 = b!"Host").length = 1 ∧
    ((b!"Host", auth) ∈ trackerHeaders ↔ host = b!"192.168.1.2" ∧ port = none) := by
  refine ⟨by decide, ?_⟩
  have e : (b!"Host", auth) ∈ trackerHeaders ↔ auth = b!"192.168.1.2" := by
    simp only [trackerHeaders, List.mem_cons, Prod.mk.injEq, List.not_mem_nil, or_false]
    constructor
    · rintro (⟨h, -⟩ | ⟨h, -⟩ | ⟨h, -⟩ | ⟨h, -⟩ | ⟨-, h⟩)
      · exact absurd h (by decide)
      · exact absurd h (by decide)
      · exact absurd h (by decide)
      · exact absurd h (by decide)
      · exact h
    · exact fun h => .inr (.inr (.inr (.inr ⟨trivial, h⟩)))
  rw [e]
  cases port with
  | none =>
    simp only [IsAuthority] at ha
    rw [ha]
    exact ⟨fun h => ⟨h, rfl⟩, fun h => h.1⟩
  | some p =>
    obtain ⟨w, -, rfl⟩ := ha
    constructor
    · intro h
      have : (58 : UInt8) ∈ b!"192.168.1.2" := by rw [← h]; simp
      exact absurd this (by decide)
    · rintro ⟨-, h⟩; cases h

example : IsAuthority b!"t" (some 80) b!"t:80" := ⟨b!"80", isDecimal_decimal 80, rfl⟩

end RustBit
