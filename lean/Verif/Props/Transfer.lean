/-
Properties C14, C35, C37: what comes out of a download, and that it comes to an end.
-/
import Verif.Proofs.Segments
import Verif.Props.Download

namespace RustBit
open Spec

/-! ### C35 -/

/-- Block messages (and, as the code takes them for blocks too, block requests). -/
def isBlockMsg (x : WireMsg) : Bool := decide (x.1 = 6 ∨ x.1 = 7)

theorem answers_blocks (pl idx total : Nat) : ∀ (l : List WireMsg), (∀ x ∈ l, ∃ msg, Handled x msg) →
    (answersOf (.block pl idx total) l).map Message.contentData = (l.filter isBlockMsg).map (fun x => x.2.drop 8) := by
  intro l
  induction l with
  | nil => intro _; rfl
  | cons x t ih =>
    intro h
    have ih := ih (fun y hy => h y (by simp [hy]))
    obtain ⟨msg, hx⟩ := h x (by simp)
    rw [show x :: t = [x] ++ t from rfl, answersOf_append, answersOf_single _ (toMsg_handled hx), List.map_append, ih,
      List.filter_append, List.map_append]
    congr 1
    rw [filter_eq_isAnswer _ ⟨_, _, _, hx.2⟩]
    obtain ⟨h1, -, h3⟩ := newRaw_id hx.2
    simp only [isAnswer, h1, isBlockMsg, List.filter_cons, List.filter_nil]
    by_cases hid : x.1 = 6 ∨ x.1 = 7
    · simp only [hid, decide_true, if_true, List.map_cons, List.map_nil]
      congr 1
      unfold Message.contentOf at h3
      have n2 : x.1 ≠ 2 := by rcases hid with e | e <;> simp [e]
      have n5 : x.1 ≠ 5 := by rcases hid with e | e <;> simp [e]
      rw [if_neg n2, if_neg n5, if_pos hid.symm] at h3
      by_cases hl : 8 ≤ x.2.length
      · rw [request_fromBytes_of_le hl] at h3
        simp only [Res.bind_ok, Res.ok.injEq] at h3
        simp [Message.contentData, ← h3]
      · rw [request_fromBytes_panic (by omega)] at h3
        simp at h3
    · simp [hid]

theorem blocks_flatten (piece : Bytes) (n : Nat) :
    ((List.range n).map (blockOf piece)).flatten = piece.take (n * 16384) := by
  induction n with
  | zero => simp
  | succ n ih =>
    rw [List.range_succ, List.map_append, List.flatten_append, ih, Nat.add_mul, Nat.one_mul]
    simp only [List.map_cons, List.map_nil, List.flatten_cons, List.flatten_nil, List.append_nil, blockOf]
    rw [List.take_add]

theorem take_flatMap_data (l : List Message) (n : Nat) :
    (l.take n).flatMap Message.contentData = ((l.map Message.contentData).take n).flatten := by
  rw [← List.map_take, List.flatMap_def]

/-- C35 for a piece. The peer's messages arrive in segments, the bytes of length and id together and the rest of a message within 42
system calls; none is a choke (or one that makes the code crash or of more than 2^28 bytes); the first answers are the blocks of
the piece, in order; and while blocks are missing something arrives at least every 20 system calls, i.e. there are fewer than
10 empty polls in a row. Then the download returns exactly the piece. Missing: keep-alives (C29), split headers and slower
messages (C30). -/
theorem C35_piece_partial (m : Build) (net : Net) (ms : Nat → WireMsg) (full : Nat → Nat) (part : Nat → Bytes) (pl idx total : Nat) (p : Peer)
    (piece : Bytes) (T : Nat)
    (hin : idx * pl < total) (ho : pl * (idx + 1) < 2 ^ 64) (ht : total < 2 ^ 64) (hi : idx < 2 ^ 32)
    (hpl : 0 < pl) (hpiece : piece.length = pieceSize pl idx total)
    (hnet : Segmented net p.conn ms full part) (hck : p.choked = false)
    (hmsgs : ∀ j, (ms j).1 ≠ 0 ∧ ∃ msg, Handled (ms j) msg)
    (hblocks : (List.range ((piece.length + 16383) / 16384)).map (blockMsg idx piece) <+: (firstMsgs ms (full T)).filter isBlockMsg)
    (hpause : ∀ k, (piece.length + 16383) / 16384 ≤ ((firstMsgs ms (full k)).filter isBlockMsg).length ∨
      arrivals net (p.conn.t + k) 20 ≠ []) :
    ∃ f0, ∀ f, f0 ≤ f → ((Downloadable.block pl idx total).download m net f p).1 = .ok piece := by
  have hcap : ((Downloadable.block pl idx total).capacity m p : Res DownloadableError Nat) =
      .ok ((piece.length + 16383) / 16384) := by
    simp only [Downloadable.capacity, realPieceLength_eq m pl idx total hin ho hi, Res.bind_ok]
    rw [stepByLen_spec _ _ (by decide), hpiece]
    rfl
  have hsz : pieceSize pl idx total = min pl (total - idx * pl) := rfl
  generalize hn : (piece.length + 16383) / 16384 = n at *
  have hn0 : 0 < n := by omega
  have hsp : ∀ (j : Nat), ∀ x ∈ firstMsgs ms j, ∃ msg, Handled x msg := by
    intro j x hx
    simp only [firstMsgs, List.mem_map] at hx
    obtain ⟨i, -, rfl⟩ := hx
    exact (hmsgs i).2
  have hlen : ∀ j, (answersOf (.block pl idx total) (firstMsgs ms j)).length = ((firstMsgs ms j).filter isBlockMsg).length := by
    intro j
    have := congrArg List.length (answers_blocks pl idx total _ (hsp j))
    simpa using this
  have hgood : Goodness m (.block pl idx total) n (fun _ => True) (fun _ => True) := by
    refine ⟨by simp, by simp, by simp, ?_⟩
    intro q i _ hi'
    exact ⟨_, blockRequest_eq m pl idx total i (by omega) ht⟩
  have hT : n ≤ ((firstMsgs ms (full T)).filter isBlockMsg).length := by
    have := hblocks.length_le
    simpa using this
  have hinit : SInv (.block pl idx total) n net p.conn ms (fun _ => True) 0 0 ⟨p, ⟨[], n, 0⟩, 0⟩ :=
    ⟨⟨rfl, by simp [streamed, firstMsgs, arrivals]⟩, rfl, by simpa [answersOf, firstMsgs] using hn0, rfl, hck, trivial, by simp,
      by simp [arrivals]⟩
  refine ⟨(T - 0) + (full T - 0) + 1, fun f hf => ?_⟩
  obtain ⟨p', hrun⟩ := segment_run (T := T) hnet hgood (fun j => ⟨trivial, hmsgs j⟩)
    (by intro k; rw [hlen]; exact hpause k) (by rw [hlen]; exact hT) _ hinit
    (Nat.le_refl _) f (by omega)
  unfold Downloadable.download
  rw [hcap]
  simp only [execute, hrun]
  rw [take_flatMap_data, answers_blocks pl idx total _ (hsp _)]
  congr 1
  obtain ⟨r, hr⟩ := hblocks
  rw [← hr, List.map_append, List.take_append_of_le_length (by simp),
    List.take_of_length_le (by simp), List.map_map]
  have hmap : (fun x : WireMsg => List.drop 8 x.2) ∘ blockMsg idx piece = blockOf piece := by
    funext i
    simp [blockMsg, u32]
  rw [hmap, blocks_flatten, List.take_of_length_le (by omega)]

theorem blockMsg_handled (idx : Nat) (piece : Bytes) (i : Nat) : ∃ msg, Handled (blockMsg idx piece i) msg := by
  have hl : (blockMsg idx piece i).2.length = 8 + (blockOf piece i).length := by
    simp [blockMsg, u32]; omega
  have hb : (blockOf piece i).length ≤ 16384 := by simp [blockOf]; omega
  obtain ⟨r, hr⟩ : ∃ r, (RequestMessage.fromBytes (blockMsg idx piece i).2 : Res Bytes _) = .ok r :=
    ⟨_, request_fromBytes_of_le (by omega)⟩
  have h7 : (blockMsg idx piece i).1 = 7 := rfl
  refine ⟨⟨7, (blockMsg idx piece i).2.length, .request r⟩, by omega, ?_⟩
  simp only [Message.newRaw, Message.contentOf, h7]
  rw [hr]
  rfl

/-- The blocks of a piece, in order. -/
def pieceBlocks (idx : Nat) (piece : Bytes) : List WireMsg := (List.range ((piece.length + 16383) / 16384)).map (blockMsg idx piece)

theorem pieceBlocks_filter (idx : Nat) (piece : Bytes) : (pieceBlocks idx piece).filter isBlockMsg = pieceBlocks idx piece := by
  rw [List.filter_eq_self]
  intro x hx
  simp only [pieceBlocks, List.mem_map] at hx
  obtain ⟨i, -, rfl⟩ := hx
  rfl

theorem pieceBlocks_handled {idx : Nat} {piece : Bytes} : ∀ x ∈ pieceBlocks idx piece, x.1 ≠ 0 ∧ ∃ msg, Handled x msg := by
  intro x hx
  simp only [pieceBlocks, List.mem_map] at hx
  obtain ⟨i, -, rfl⟩ := hx
  exact ⟨by simp [blockMsg], blockMsg_handled idx piece i⟩

/-- Non-vacuity of C35, for every piece: a "have" message, the blocks and another "have" message arrive, the last one in two parts. -/
example (idx : Nat) (piece : Bytes) :
    let net := lateNet ((4, [0, 0, 0, 9]) :: pieceBlocks idx piece) (4, [0, 0, 0, 8])
    ∃ ms full part, Segmented net ⟨[], 0⟩ ms full part ∧ part 2 ≠ [] ∧ (∀ j, (ms j).1 ≠ 0 ∧ ∃ msg, Handled (ms j) msg) ∧
    (List.range ((piece.length + 16383) / 16384)).map (blockMsg idx piece) <+: (firstMsgs ms (full 4)).filter isBlockMsg ∧
    (∀ k, (piece.length + 16383) / 16384 ≤ ((firstMsgs ms (full k)).filter isBlockMsg).length ∨ arrivals net (0 + k) 20 ≠ []) := by
  intro net
  have hs := segmented_late ((4, [0, 0, 0, 9]) :: pieceBlocks idx piece) (4, [0, 0, 0, 8]) (by simp)
  have h1 : (((4, [0, 0, 0, 9]) :: pieceBlocks idx piece).filter isBlockMsg) = pieceBlocks idx piece := by
    rw [List.filter_cons, if_neg (by decide), pieceBlocks_filter]
  refine ⟨_, _, _, hs, by decide, ?_, ?_, ?_⟩
  · refine ofList_mem (P := fun x => x.1 ≠ 0 ∧ ∃ msg, Handled x msg) ?_ ⟨by simp, ⟨1, 0, .nothing⟩, by simp, rfl⟩
    intro x hx
    rw [List.mem_append, List.mem_cons, List.mem_singleton] at hx
    rcases hx with (rfl | hx) | rfl
    · exact ⟨by decide, ⟨4, 4, .nothing⟩, by simp, rfl⟩
    · exact pieceBlocks_handled x hx
    · exact ⟨by decide, ⟨4, 4, .nothing⟩, by simp, rfl⟩
  · simp only [Nat.reduceEqDiff, if_false, Nat.lt_irrefl]
    rw [show (((4, [0, 0, 0, 9]) :: pieceBlocks idx piece).length + 1) =
      (((4, [0, 0, 0, 9]) :: pieceBlocks idx piece) ++ [((4, [0, 0, 0, 8]) : WireMsg)]).length by simp, firstMsgs_all, List.filter_append, h1]
    exact List.prefix_append _ _
  · intro k
    rcases Nat.eq_zero_or_pos k with rfl | hk
    · right
      simp [net, arrivals, lateNet, wire, u32]
    · left
      simp only [show k ≠ 0 by omega, if_false]
      split
      · rw [firstMsgs_ofList _ _ (by simp), List.take_left' rfl, h1]
        simp [pieceBlocks]
      · rw [show (((4, [0, 0, 0, 9]) :: pieceBlocks idx piece).length + 1) =
          (((4, [0, 0, 0, 9]) :: pieceBlocks idx piece) ++ [((4, [0, 0, 0, 8]) : WireMsg)]).length by simp, firstMsgs_all, List.filter_append, h1,
          List.length_append]
        simp [pieceBlocks]

/-- C35 for metadata: the data messages carry the chunks of the metadata in order. -/
theorem C35_metadata_partial (m : Build) (net : Net) (ms : Nat → WireMsg) (full : Nat → Nat) (part : Nat → Bytes) (p : Peer) (md : Bytes) (T : Nat)
    (hsize : p.metadataSize = md.length) (hpos : 0 < md.length) (h64 : md.length < 2 ^ 64)
    (hext : ∃ e, mapGet p.extensions b!"ut_metadata" = some e)
    (hnet : Segmented net p.conn ms full part) (hck : p.choked = false)
    (hmsgs : ∀ j, (ms j).1 ≠ 0 ∧ (∃ msg, Handled (ms j) msg) ∧
      ∀ msg e, Handled (ms j) msg → msg.content = .extension e → e.metadataSize ≠ none →
        ∃ i, mapGet e.extensions b!"ut_metadata" = some i)
    (hdata : (List.range ((md.length + 16383) / 16384)).map (blockOf md) <+:
      (((firstMsgs ms (full T)).filterMap toMsg).filter (isAnswer .info)).map Message.contentData)
    (hpause : ∀ k, (md.length + 16383) / 16384 ≤
        (((firstMsgs ms (full k)).filterMap toMsg).filter (isAnswer .info)).length ∨
      arrivals net (p.conn.t + k) 20 ≠ []) :
    ∃ f0, ∀ f, f0 ≤ f → (Downloadable.info.download m net f p).1 = .ok md := by
  have hcap : (Downloadable.info.capacity m p : Res DownloadableError Nat) = .ok ((md.length + 16383) / 16384) := by
    simp only [Downloadable.capacity]
    rw [stepByLen_spec _ _ (by decide), hsize]
    rfl
  generalize hn : (md.length + 16383) / 16384 = n at *
  have hn0 : 0 < n := by omega
  have hgood : Goodness m .info n (fun x => ∀ msg e, Handled x msg → msg.content = .extension e →
      e.metadataSize ≠ none → ∃ i, mapGet e.extensions b!"ut_metadata" = some i)
      (fun p => ∃ e, mapGet p.extensions b!"ut_metadata" = some e) := by
    refine ⟨fun p c h => h, fun p c l h => h, ?_, ?_⟩
    · intro q x msg hx hh hq
      simp only [Peer.applyMessage, Peer.applyState, Peer.applyContent]
      split
      · exact hq
      · split
        · exact hq
        · split
          · split
            · exact hq
            · rename_i e he
              split
              · rename_i hs
                refine hx msg e hh he ?_
                intro hne
                simp [ExtensionMessage.isHandshake, hne] at hs
              · exact hq
            · exact hq
            · exact hq
          · exact hq
    · intro q i ⟨e, he⟩ hi
      refine ⟨⟨20, (metadataRequestData i).length + 2, .extension ⟨e, some 0, none, [], some i, []⟩⟩, ?_⟩
      simp only [Downloadable.request, he]
      exact newMetadata_eq e i (by omega)
  have hT : n ≤ (answersOf .info (firstMsgs ms (full T))).length := by
    have := hdata.length_le
    rw [List.length_map, List.length_range, List.length_map] at this
    exact this
  have hinit : SInv .info n net p.conn ms (fun p => ∃ e, mapGet p.extensions b!"ut_metadata" = some e) 0 0 ⟨p, ⟨[], n, 0⟩, 0⟩ :=
    ⟨⟨rfl, by simp [streamed, firstMsgs, arrivals]⟩, rfl, by simpa [answersOf, firstMsgs] using hn0, rfl, hck, hext, by simp,
      by simp [arrivals]⟩
  refine ⟨(T - 0) + (full T - 0) + 1, fun f hf => ?_⟩
  obtain ⟨p', hrun⟩ := segment_run (T := T) hnet hgood (fun j => ⟨(hmsgs j).2.2, (hmsgs j).1, (hmsgs j).2.1⟩)
    hpause hT _ hinit (Nat.le_refl _) f (by omega)
  unfold Downloadable.download
  rw [hcap]
  simp only [execute, hrun]
  rw [take_flatMap_data]
  congr 1
  have hd : (List.range n).map (blockOf md) <+: (answersOf .info (firstMsgs ms (full T))).map Message.contentData := hdata
  obtain ⟨r, hr⟩ := hd
  rw [← hr, List.take_append_of_le_length (by simp), List.take_of_length_le (by simp), blocks_flatten,
    List.take_of_length_le (by omega)]

/-- The full C35 is false because of keep-alives: the peer sends both blocks, but a keep-alive between them makes the
download fail (C29). -/
theorem C35_refuted_keepalive :
    (execute .release (script [blockMessage 0 0 [1] ++ [0, 0, 0, 0] ++ blockMessage 0 16384 [2]])
      (.block 32768 0 32768) 9 readyPeer 2).1 = .err .chokedPeer := by decide +kernel

/-- Nor does it hold without each of the conditions on the arrival: a block message of which one or two bytes come first, and the others a few system calls later, is lost ... -/
theorem C35_refuted_split (n : Nat) (hn : n = 1 ∨ n = 2) :
    (execute .release (script [(blockMessage 0 0 [1]).take n, [], [], [], (blockMessage 0 0 [1]).drop n]) (.block 16384 0 16384) 9 readyPeer 1).1 = .err .chokedPeer := by
  rcases hn with rfl | rfl
  · decide +kernel
  · decide +kernel

/-- ... so is one of which the body comes 43 calls after the first five bytes, but not if it comes one call earlier ... -/
theorem C35_refuted_slow :
    (execute .release (script ((blockMessage 0 0 [1]).take 5 :: List.replicate 42 [] ++ [(blockMessage 0 0 [1]).drop 5])) (.block 16384 0 16384) 9 readyPeer 1).1 = .ok [1] ∧
    (execute .release (script ((blockMessage 0 0 [1]).take 5 :: List.replicate 43 [] ++ [(blockMessage 0 0 [1]).drop 5])) (.block 16384 0 16384) 9 readyPeer 1).1 =
      .err .chokedPeer := ⟨by decide +kernel, by decide +kernel⟩

/-- ... and one for which nothing came for 23 calls is not waited for. -/
theorem C35_refuted_pause :
    (execute .release (script (List.replicate 22 [] ++ [blockMessage 0 0 [1]])) (.block 16384 0 16384) 99 readyPeer 1).1 = .ok [1] ∧
    (execute .release (script (List.replicate 23 [] ++ [blockMessage 0 0 [1]])) (.block 16384 0 16384) 99 readyPeer 1).1 = .err .idle := ⟨by decide +kernel, by decide +kernel⟩

/-! ### C37 -/

/-- The full C37 is false: against a peer that keeps sending "unchoke" messages the loop never ends. -/
theorem C37_refuted_livelock : ∃ net : Net, ∀ f,
    (execute .release net (.block 16384 0 16384) f readyPeer 1).1 = .hang := by
  let net : Net := fun _ => ⟨wire (1, []), .up⟩
  refine ⟨net, fun f => ?_⟩
  have harr : ∀ k t, arrivals net t k = streamed (fun _ => (1, [])) k := by
    intro k
    induction k with
    | zero => intro t; rfl
    | succ k ih =>
      intro t
      have : ∀ n, streamed (fun _ => (1, [])) n ++ wire (1, []) = wire (1, []) ++ streamed (fun _ => (1, [])) n := by
        intro n
        induction n with
        | zero => simp [streamed, firstMsgs]
        | succ n ih => rw [streamed_succ, List.append_assoc, ← List.append_assoc (wire _), ← ih, List.append_assoc]
      rw [arrivals, ih, streamed_succ, this]
  have hs : Segmented net ⟨[], 0⟩ (fun _ => (1, [])) (fun k => k) (fun _ => []) :=
    ⟨fun t _ => by simp [net], fun k => by simp [harr], fun k => ⟨List.nil_prefix, (wire_ne_nil _).symm⟩, fun k => .inl rfl,
      fun k h => absurd rfl h⟩
  have hu : Handled ((1, []) : WireMsg) ⟨1, 0, .nothing⟩ := ⟨by simp, rfl⟩
  have key : ∀ f (s : DState) (k j : Nat), Reads net ⟨[], 0⟩ (fun _ => (1, [])) k j s.peer.conn → s.buf.buffer = [] → s.buf.capacity = 1 →
      ∃ s', execRun .release net (.block 16384 0 16384) f s = .again s' := by
    intro f
    induction f with
    | zero => intro s _ _ _ _ _; exact ⟨s, rfl⟩
    | succ f ih =>
      intro s k j hr hbuf hcap
      have hne : (s.peer.conn.after net 2).buf ≠ [] := by
        intro e
        have h1 := hr.after 2
        have h2 := hr.le_full hs
        have h3 := streamed_lt (fun _ => ((1, []) : WireMsg)) (show j < k + 2 by omega)
        rw [e, List.append_nil, List.nil_append, harr] at h1
        rw [← h1] at h3
        have := wire_length_ge (1, [])
        omega
      obtain ⟨n, d', hr1, hr2, -⟩ := poll_message hs hr hu.1 hne
      have hstep : execStep .release net (.block 16384 0 16384) s = execTail .release net (.block 16384 0 16384)
          ⟨({ s.peer with conn := d' } : Peer).applyMessage ⟨1, 0, .nothing⟩, s.buf.pushMessage (.block 16384 0 16384) ⟨1, 0, .nothing⟩, 0⟩ := by
        unfold execStep Peer.readMessage
        rw [hr1]
        simp only [hu.2]
      rw [execRun, hstep]
      obtain ⟨s', e0, e1, e2, -, e4⟩ := execTail_again (m := .release) (net := net) (d := .block 16384 0 16384)
        (s := ⟨({ s.peer with conn := d' } : Peer).applyMessage ⟨1, 0, .nothing⟩, s.buf.pushMessage (.block 16384 0 16384) ⟨1, 0, .nothing⟩, 0⟩)
        (by simp [MessageBuffer.pushMessage, Downloadable.messageFilter, Message.isRequest, MessageBuffer.isFull, hbuf, hcap])
        rfl (by simp)
        (by
          simp only [MessageBuffer.pushMessage, Downloadable.messageFilter, Message.isRequest, Bool.false_and,
            Bool.false_eq_true, if_false, hbuf, List.length_nil, Downloadable.request]
          exact ⟨_, blockRequest_eq .release 16384 0 16384 0 (by decide) (by decide)⟩)
      rw [e0]
      have hbuf' : s'.buf.buffer = [] := by
        rw [e1]
        simp [MessageBuffer.pushMessage, Downloadable.messageFilter, Message.isRequest, hbuf]
      have hcap' : s'.buf.capacity = 1 := by
        rw [e2]
        simp [MessageBuffer.pushMessage, Downloadable.messageFilter, Message.isRequest, hcap]
      rcases e4 with e4 | ⟨x, e4⟩
      · refine ih s' (k + n) (j + 1) ?_ hbuf' hcap'
        rw [e4, applyMessage_conn]
        exact hr2
      · refine ih s' (k + n + 1) (j + 1) ?_ hbuf' hcap'
        rw [e4]
        simp only [applyMessage_conn]
        exact reads_advance hr2
  obtain ⟨s', hs'⟩ := key f ⟨readyPeer, ⟨[], 1, 0⟩, 0⟩ 0 0 ⟨rfl, rfl⟩ rfl rfl
  simp [execute, hs']

/-- C37 for peers that send finitely many bytes (`B` in all, from now on): the loop ends, after at most `11 * B + 10`
iterations. Missing: endless peers (refuted above), and messages on which the decoder itself never
returns (C24), which is the only way the result can be `hang`. -/
theorem C37_finite_input_partial (m : Build) (net : Net) (d : Downloadable) (p : Peer) (cap B f : Nat)
    (hB : ∀ k, p.conn.buf.length + (arrivals net p.conn.t k).length ≤ B) (hf : 11 * B + 10 < f) (hcap : cap ≤ 2 ^ 64) :
    ∃ r p', execRun m net d f ⟨p, ⟨[], cap, 0⟩, 0⟩ = .done r p' ∧ (execute m net d f p cap).1 = r ∧
      (r = .hang → ∃ body len id, Message.newRaw body len id = .hang) := by
  obtain ⟨r, p', h1, h2⟩ := loop_ends (m := m) (d := d) (s := ⟨p, ⟨[], cap, 0⟩, 0⟩) f hB (by simp) (by simpa using hf) (by simp) hcap
  exact ⟨r, p', h1, by simp [execute, h1], h2⟩

/-- Non-vacuity: the schedule `script` sends finitely many bytes. -/
example (segs : List Bytes) : ∃ B, ∀ k, (arrivals (script segs) 0 k).length ≤ B := by
  have : ∀ (segs : List Bytes) (t k : Nat), (arrivals (fun t => ⟨(segs.drop t).getD 0 [], .up⟩) t k).length ≤
      ((segs.drop t).map List.length).sum := by
    intro segs t k
    induction k generalizing t with
    | zero => simp [arrivals]
    | succ k ih =>
      have := ih (t + 1)
      simp only [arrivals, List.length_append]
      cases hd : segs.drop t with
      | nil =>
        have : segs.drop (t + 1) = [] := by
          rw [← List.drop_drop, hd]; rfl
        simp_all
      | cons a l =>
        have : segs.drop (t + 1) = l := by rw [← List.drop_drop, hd]; rfl
        simp_all
  refine ⟨(segs.map List.length).sum, fun k => ?_⟩
  have h := this segs 0 k
  have e : (fun t => (⟨(segs.drop t).getD 0 [], .up⟩ : NetEv)) = script segs := by
    funext t
    simp [script, List.getD]
  rw [e] at h
  simpa using h

/-! ### C14 -/

/-- A peer that sends the given metadata. -/
def metadataPeer (hash md : Bytes) : Net :=
  script [sampleHandshake hash ++ sampleExtension (decimal md.length) ++ sampleUnchoke ++
    (let d := 1 :: b!"d8:msg_typei1e5:piecei0ee" ++ md
     beU32 (d.length + 1) ++ 20 :: d)]

def forged1 : Bytes := b!"d6:lengthi1e4:name1:a12:piece lengthi16384e6:pieces1:pe"
def forged2 : Bytes := b!"d6:lengthi2e4:name1:b12:piece lengthi16384e6:pieces1:qe"

/-- The full C14 is false: `get_info` accepts two different metadata documents for one and the same info hash.
So for every hash function that distinguishes these two documents it accepts metadata whose hash is
not the one asked for. -/
theorem C14_refuted (sha : Bytes → Bytes) (h : sha forged1 ≠ sha forged2) :
    ∃ (md : Bytes) (info : Info), Info.fromBytes md = .ok info ∧
      getInfo .release (.connected (metadataPeer (List.replicate 20 7) md)) 9 (List.replicate 20 1)
        (List.replicate 20 7) = .ok info ∧ sha md ≠ List.replicate 20 7 := by
  have h1 : getInfo .release (.connected (metadataPeer (List.replicate 20 7) forged1)) 9 (List.replicate 20 1)
      (List.replicate 20 7) = .ok ⟨none, some 1, b!"a", 16384, b!"p"⟩ := by decide +kernel
  have h2 : getInfo .release (.connected (metadataPeer (List.replicate 20 7) forged2)) 9 (List.replicate 20 1)
      (List.replicate 20 7) = .ok ⟨none, some 2, b!"b", 16384, b!"q"⟩ := by decide +kernel
  by_cases hs : sha forged1 = List.replicate 20 7
  · exact ⟨forged2, _, by decide +kernel, h2, fun e => h (by rw [hs, e])⟩
  · exact ⟨forged1, _, by decide +kernel, h1, hs⟩

example : (fun b : Bytes => b) forged1 ≠ (fun b : Bytes => b) forged2 := by decide +kernel

/-- C14, what is checked: metadata is accepted only from a peer that presented the requested info hash in its
handshake, and it is what `Info::from_bytes` makes of the concatenated data of the answers received, as many as the
announced size calls for. Missing: any comparison of the metadata with the hash (refuted above). -/
theorem C14_handshake_only_partial (m : Build) (net : Net) (f : Nat) (peerId hash : Bytes) (info : Info) (p : Peer)
    (h : getInfoRun m net f peerId hash = (.ok info, p)) :
    (∃ msg x, Ev.got msg ∈ p.log ∧ msg.content = .handshake x ∧ x.infoHash = hash) ∧
    ∃ (opening new : List Ev), p.log = opening ++ new ∧ announcedSize 0 opening ≠ 0 ∧
      (received (isAnswer .info) new).length = (announcedSize 0 opening + 16383) / 16384 ∧
      Info.fromBytes ((received (isAnswer .info) new).flatMap Message.contentData) = .ok info := by
  have hr := C31_ready net hash peerId (initPeer net (freshPeer hash peerId)).2
  obtain ⟨new0, ht, -, -⟩ := initPeer_history net (freshPeer hash peerId) rfl
  unfold getInfoRun at h
  simp only [freshPeer] at hr ht
  generalize hi : initPeer net (Peer.new ⟨[], 0⟩ hash peerId) = r at h hr ht
  obtain ⟨r1, q⟩ := r
  cases r1 with
  | ok u =>
    obtain ⟨-, hsize, -, msg, x, gots, hlog, hc, hx⟩ := hr rfl
    simp only [] at h hsize hlog
    have hql : q.log = new0 := by rw [ht.log]; rfl
    have hqs : q.metadataSize = announcedSize 0 q.log := by rw [ht.size, hql]; rfl
    have hd := download_history m net .info f q
    generalize hD : Downloadable.info.download m net f q = D at h hd
    obtain ⟨d1, q'⟩ := D
    cases d1 with
    | ok b =>
      simp only [Prod.mk.injEq] at h
      obtain ⟨h1, rfl⟩ := h
      rcases hd with ⟨cap, new, hcap, hend⟩ | ⟨-, -, hno⟩
      · simp only [Downloadable.capacity] at hcap
        rw [stepByLen_spec _ _ (by decide), Res.ok.injEq] at hcap
        have hcap' : cap = (announcedSize 0 q.log + 16383) / 16384 := by
          rw [← hcap, hqs]; rfl
        have hw : received (Downloadable.messageFilter .info) new = received (isAnswer .info) new :=
          received_congr (fun m' hm => filter_eq_isAnswer _ (hend.wire m' hm))
        obtain ⟨h2, h3⟩ := hend.ok b rfl
        have h4 := hend.bounded (by omega)
        rw [hw] at h2 h3 h4
        rw [List.take_of_length_le h4] at h3
        refine ⟨⟨msg, x, by rw [hend.log, hlog]; simp, hc, hx⟩, q.log, new, hend.log, hsize, by omega, ?_⟩
        rw [← h3]
        revert h1
        cases Info.fromBytes b <;> simp
      · exact absurd rfl (hno b)
    | err e => simp at h
    | panic => simp at h
    | hang => simp at h
  | err e => simp at h
  | panic => simp at h
  | hang => simp at h

/-- Non-vacuity: `C14_refuted` contains such a run. -/
example : (getInfoRun .release (metadataPeer (List.replicate 20 7) forged1) 9 (List.replicate 20 1)
      (List.replicate 20 7)).1 = .ok ⟨none, some 1, b!"a", 16384, b!"p"⟩ := by decide +kernel

end RustBit
