/-
C125: who sends what is asked for is not found to have sent something else.
-/
import Verif.Spec.Seeder
import Verif.Props.Order
import Verif.Props.Attempt
import Verif.Props.Honest

namespace RustBit
open Spec

/-- Answers in order, after an opening: the data of answer `k` is what is right for request `k`. -/
theorem replies_in_order {right : Bytes → Bytes → Prop} {d : Downloadable} {g : Nat → Bytes} {l0 : List Ev} (hl0 : (written l0).length = 3) {N : Nat} :
    ∀ new : List Ev, InReply right d (l0 ++ new) → (∀ k w y, k < N → (written new)[k]? = some w → right w y → y = g k) →
      ((came new).filter (isAnswer d)).length ≤ N →
      ((came new).filter (isAnswer d)).map Message.contentData = (List.range ((came new).filter (isAnswer d)).length).map g := by
  have hnone : ∀ x a b, InReply right d (l0 ++ b) → l0 = a ++ .got x :: (l0.drop (a.length + 1)) → isAnswer d x = true → False := by
    intro x a b h e hx
    obtain ⟨w, hw, -⟩ := h a x (l0.drop (a.length + 1) ++ b) (by rw [e]; simp) hx
    have hlen : (written a).length ≤ 3 := by
      rw [← hl0, e, written_append]
      simp
    rw [askedOf, List.drop_eq_nil_of_le hlen] at hw
    simp at hw
  have hzero : ∀ b, InReply right d (l0 ++ b) → repliesIn d l0 = [] := by
    intro b h
    unfold repliesIn
    rw [List.filter_eq_nil_iff]
    intro x hx hans
    unfold came at hx
    rw [List.mem_filterMap] at hx
    obtain ⟨e, he, hex⟩ := hx
    cases e with
    | sent _ => cases hex
    | got y =>
      simp only [Option.some.injEq] at hex
      subst hex
      obtain ⟨a, c, hac⟩ := List.append_of_mem he
      refine hnone y a b h ?_ hans
      rw [hac]
      simp
  intro new
  generalize hn : new.length = n
  induction n generalizing new with
  | zero =>
    intro _ _ _
    rw [List.length_eq_zero_iff.mp hn]
    rfl
  | succ n ih =>
    intro h hg hN
    rcases List.eq_nil_or_concat new with rfl | ⟨pre, e, rfl⟩
    · simp at hn
    rw [List.concat_eq_append] at *
    have hpre : InReply right d (l0 ++ pre) := by
      intro a x b hab hx
      exact h a x (b ++ [e]) (by rw [← List.append_assoc, hab]; simp) hx
    have hlen : pre.length = n := by simpa using hn
    cases e with
    | sent b =>
      have e1 : came (pre ++ [.sent b]) = came pre := by simp [came]
      rw [e1] at hN ⊢
      refine ih pre hlen hpre (fun k w y hk hw => hg k w y hk ?_) hN
      rw [written_append]
      rw [List.getElem?_append_left (List.getElem?_eq_some_iff.mp hw).1]
      exact hw
    | got x =>
      have e1 : came (pre ++ [.got x]) = came pre ++ [x] := by simp [came]
      have e2 : written (pre ++ [.got x]) = written pre := by simp [written]
      rw [e2] at hg
      rw [e1, List.filter_append] at hN ⊢
      cases hx : isAnswer d x with
      | false =>
        simp only [List.filter_cons, hx, Bool.false_eq_true, if_false, List.filter_nil, List.append_nil] at hN ⊢
        exact ih pre hlen hpre hg hN
      | true =>
        simp only [List.filter_cons, hx, if_true, List.filter_nil, List.length_append, List.length_singleton] at hN ⊢
        rw [List.map_append, ih pre hlen hpre hg (by omega), List.range_succ, List.map_append]
        congr 1
        simp only [List.map_cons, List.map_nil, List.cons.injEq, and_true]
        obtain ⟨w, hw, hr⟩ := h (l0 ++ pre) x [] (by simp) hx
        have e3 : (repliesIn d (l0 ++ pre)).length = ((came pre).filter (isAnswer d)).length := by
          have := hzero _ hpre
          unfold repliesIn at this ⊢
          rw [came_append, List.filter_append, this, List.nil_append]
        have e4 : askedOf (l0 ++ pre) = written pre := by
          unfold askedOf
          rw [written_append, ← hl0, List.drop_left]
        rw [e3, e4] at hw
        exact hg _ w _ (by omega) hw hr

/-- After an opening, a transfer from somebody who answers in order gives what is right. -/
theorem download_replied (m : Build) (net : Net) (d : Downloadable) (f : Nat) (p : Peer) {n : Nat} (hn : 0 < n) (hck : p.choked = false)
    (hcap : (d.capacity m p : Res DownloadableError Nat) = .ok n) (hl0 : (written p.log).length = 3) {right : Bytes → Bytes → Prop} {g : Nat → Bytes}
    (hg : ∀ k w y, k < n → AskedFor m d k w → right w y → y = g k) (h : InReply right d (d.download m net f p).2.log) (b : Bytes)
    (hb : (d.download m net f p).1 = .ok b) : b = ((List.range n).map g).flatten := by
  obtain ⟨later, h1, h2, -⟩ := transfer_ended m net d f p hn hck hcap
  obtain ⟨h3, rfl⟩ := h2 b hb
  have hd : d.download m net f p = execute m net d f p n := by unfold Downloadable.download; rw [hcap]
  rw [hd] at h h1
  obtain ⟨new, hl, hord, -⟩ := execute_order m net d f n p
  rw [hl] at h h1
  rw [came_append] at h1
  have hlater := List.append_cancel_left h1
  subst hlater
  have hfirst : ∀ x t, new = .got x :: t → isAnswer d x = false := by
    rintro x t rfl
    cases hx : isAnswer d x with
    | false => rfl
    | true =>
      obtain ⟨w, hw, -⟩ := h p.log x t rfl hx
      rw [askedOf, List.drop_eq_nil_of_le (by omega)] at hw
      simp at hw
  have := replies_in_order hl0 new h (fun k w y hk hw => hg k w y hk (hord hfirst k w hw)) (Nat.le_of_eq h3)
  rw [h3] at this
  rw [← this, answered, List.flatMap_def]

theorem opened_written {net : Net} {hash id : Bytes} {p : Peer} (h : initPeer net (Peer.new ⟨[], 0⟩ hash id) = (.ok (), p)) : (written p.log).length = 3 := by
  obtain ⟨new, ht, -, hok⟩ := initPeer_history net (Peer.new ⟨[], 0⟩ hash id) rfl
  rw [h] at ht hok
  obtain ⟨-, mm, x, gots, e, -⟩ := hok rfl
  rw [ht.log, e]
  have wgot : ∀ gots : List Message, written (gots.map Ev.got) = [] := by
    intro gots; induction gots with
    | nil => rfl
    | cons a t ih => simp [written]
  have : written ((Peer.new ⟨[], 0⟩ hash id).log ++ Ev.sent (newHandshake hash id).asBytes :: .got mm ::
      .sent newInterested.asBytes :: .sent extensionHandshakeBytes :: gots.map .got) =
      [(newHandshake hash id).asBytes, newInterested.asBytes, extensionHandshakeBytes] ++ written (gots.map .got) := by
    simp [written, Peer.new]
  rw [show (Peer.new ⟨[], 0⟩ hash id).infoHash = hash from rfl, show (Peer.new ⟨[], 0⟩ hash id).id = id from rfl, this, wgot]
  rfl

/-- What is right for the request for block `k`. -/
theorem right_block (m : Build) {c : Bytes} {pl idx k : Nat} (hc : c.length < 2 ^ 64) (hi : idx < 2 ^ 32) (hk : k < blockCount (pieceSize pl idx c.length))
    (hs : pieceSize pl idx c.length < 2 ^ 32) {w y : Bytes} (hw : AskedFor m (.block pl idx c.length) k w) (hy : RightBlock c pl w y) :
    y = blockOf (c.drop (idx * pl)) k := by
  obtain ⟨q, msg, h1, rfl⟩ := hw
  have hk' : k * 16384 < pieceSize pl idx c.length := by unfold blockCount at hk; omega
  have hp : pieceSize pl idx c.length = min pl (c.length - idx * pl) := rfl
  simp only [Downloadable.request, blockRequest_eq m pl idx c.length k (by omega) hc, Res.ok.injEq] at h1
  subst h1
  obtain ⟨i, o, l, h2, rfl⟩ := hy
  have h3 := C22_request_wire (idx % 2 ^ 32) (k * 16384 % 2 ^ 32) (min (c.length - (k * 16384 + idx * pl)) 16384 % 2 ^ 32)
    (Nat.mod_lt _ (by decide)) (Nat.mod_lt _ (by decide)) (Nat.mod_lt _ (by decide))
  obtain ⟨rfl, rfl, rfl⟩ := C22_wire_unambiguous _ _ _ _ _ _ _ h2 h3
  rw [Nat.mod_eq_of_lt hi, Nat.mod_eq_of_lt (by omega), Nat.mod_eq_of_lt (by omega)]
  unfold blockOf
  rw [List.drop_drop]
  rcases Nat.le_total 16384 (c.length - (k * 16384 + idx * pl)) with h | h
  · rw [Nat.min_eq_right h]
  · rw [Nat.min_eq_left h, List.take_of_length_le (by rw [List.length_drop]; omega), List.take_of_length_le (by rw [List.length_drop]; omega)]

/-- C125: from somebody who answers every request at most once, in order and with what the torrent holds at the place that is asked for, the attempt gets what the
torrent holds from the beginning of the piece on, in whole blocks as far as there is something. -/
theorem C125_data_partial (sha : Bytes → Bytes) (m : Build) (net : Net) (f : Nat) (id : Bytes) (info : Info) (idx : Nat) (c : Bytes)
    (htot : total (listedFiles info) = c.length) (hT : c.length < 2 ^ 64) (hin : idx * info.pieceLength < c.length) (ho64 : info.pieceLength * (idx + 1) < 2 ^ 64)
    (hi32 : idx < 2 ^ 32) (hpl : 0 < info.pieceLength) (hs : pieceSize info.pieceLength idx c.length < 2 ^ 32)
    (h : InReply (RightBlock c info.pieceLength) (.block info.pieceLength idx c.length) (downloadRun sha m net f id info idx).2.log) :
    (∀ data, (downloadRun sha m net f id info idx).1 = .ok data →
      data = (c.drop (idx * info.pieceLength)).take (blockCount (pieceSize info.pieceLength idx c.length) * 16384) ∧ sha data = (info.pieces.drop (20 * idx)).take 20) ∧
    ((downloadRun sha m net f id info idx).1 = .err .pieceVerificationFailure →
      sha ((c.drop (idx * info.pieceLength)).take (blockCount (pieceSize info.pieceLength idx c.length) * 16384)) ≠ (info.pieces.drop (20 * idx)).take 20) := by
  unfold downloadRun at h ⊢
  generalize info.computeInfoHash sha = hash at h ⊢
  cases hi : initPeer net (Peer.new ⟨[], 0⟩ hash id) with
  | mk r p =>
    rw [hi] at h
    cases r with
    | ok u =>
      obtain ⟨ho, hck, hsz, hne⟩ := opened_state hi
      have hlen := totalLength_listed (ε := PeerManagerError) (m := m) htot hT (by omega)
      have hcap : ((Downloadable.block info.pieceLength idx c.length).capacity m p : Res DownloadableError Nat) =
          .ok (blockCount (pieceSize info.pieceLength idx c.length)) := by
        simp only [Downloadable.capacity, realPieceLength_eq m info.pieceLength idx c.length hin ho64 hi32, Res.bind_ok]
        rw [stepByLen_spec _ _ (by decide)]
        rfl
      have hpos : 0 < blockCount (pieceSize info.pieceLength idx c.length) := by unfold blockCount pieceSize; omega
      simp only [hlen] at h ⊢
      have key := download_replied m net (.block info.pieceLength idx c.length) f p hpos hck hcap (opened_written hi) (right := RightBlock c info.pieceLength)
        (g := blockOf (c.drop (idx * info.pieceLength))) (fun k w y hk hw hy => right_block m hT hi32 hk hs hw hy)
      rw [blocks_flatten] at key
      generalize (Downloadable.block info.pieceLength idx c.length).download m net f p = q at key h
      obtain ⟨r, q⟩ := q
      cases r with
      | ok b =>
        simp only at h key ⊢
        have hb := key h b rfl
        rcases Nat.lt_or_ge idx (info.pieces.length / 20) with hk | hk
        · rw [(C15_verify_piece sha info b idx).1 hk]
          simp only [Res.bind_ok, decide_eq_true_eq]
          constructor
          · intro data hd
            split at hd
            · rename_i he
              cases hd
              exact ⟨hb, he⟩
            · cases hd
          · intro he
            split at he
            · cases he
            · rename_i hne'
              rw [← hb]
              exact hne'
        · rw [(C15_verify_piece sha info b idx).2 hk]
          exact ⟨(fun _ hd => by cases hd), (fun hd => by cases hd)⟩
      | err e' => exact ⟨(fun _ hd => by cases hd), (fun hd => by cases hd)⟩
      | panic => exact ⟨(fun _ hd => by cases hd), (fun hd => by cases hd)⟩
      | hang => exact ⟨(fun _ hd => by cases hd), (fun hd => by cases hd)⟩
    | err e' =>
      refine ⟨fun _ hd => by (simp at hd), fun hd => ?_⟩
      have ho := opens_forward p (some e') hi
      simp only [Res.err.injEq] at hd
      subst hd
      cases ho
    | panic => exact ⟨(fun _ hd => by cases hd), (fun hd => by cases hd)⟩
    | hang => exact ⟨(fun _ hd => by cases hd), (fun hd => by cases hd)⟩

theorem last_take {c : Bytes} {pl idx : Nat} (h : c.length ≤ pl * (idx + 1)) : (c.drop (idx * pl)).take (blockCount (pieceSize pl idx c.length) * 16384) = piece c pl idx := by
  unfold piece
  rw [Nat.mul_add, Nat.mul_comm pl idx] at h
  have hl : (c.drop (idx * pl)).length = c.length - idx * pl := List.length_drop
  have hp : pieceSize pl idx c.length = min pl (c.length - idx * pl) := rfl
  have hb : blockCount (pieceSize pl idx c.length) = (pieceSize pl idx c.length + 16383) / 16384 := rfl
  rw [List.take_of_length_le (by omega), List.take_of_length_le (by omega)]

theorem whole_take {c : Bytes} {pl idx : Nat} (h : pl % 16384 = 0) : (c.drop (idx * pl)).take (blockCount (pieceSize pl idx c.length) * 16384) = piece c pl idx := by
  rcases Nat.le_total c.length (pl * (idx + 1)) with hc | hc
  · exact last_take hc
  · unfold piece
    have e : pieceSize pl idx c.length = pl := by
      unfold pieceSize
      rw [Nat.mul_add, Nat.mul_comm pl idx] at hc
      omega
    rw [e]
    unfold blockCount
    rw [show (pl + 16383) / 16384 * 16384 = pl by omega]

/-- **C125** for pieces: somebody who answers every request at most once, in order, with what the torrent holds at the place that is asked for, is never found to have
sent a wrong piece, and what is got of them is the piece. Missing: pieces of a length that is no multiple of 16384 other than the last one (`C125_beyond`),
those who answer twice (`C125_refuted`). -/
theorem C125_piece_partial {sha : Bytes → Bytes} (m : Build) (net : Net) (f : Nat) (id : Bytes) {info : Info} {c : Bytes} (hd : Describes sha info c) {idx : Nat}
    (hidx : idx < pieceCount c.length info.pieceLength) (hT : c.length < 2 ^ 64) (ho64 : info.pieceLength * (idx + 1) < 2 ^ 64) (hi32 : idx < 2 ^ 32)
    (hs : pieceSize info.pieceLength idx c.length < 2 ^ 32) (hw : info.pieceLength % 16384 = 0 ∨ c.length ≤ info.pieceLength * (idx + 1))
    (h : InReply (RightBlock c info.pieceLength) (.block info.pieceLength idx c.length) (downloadRun sha m net f id info idx).2.log) :
    (∀ data, (downloadRun sha m net f id info idx).1 = .ok data → data = piece c info.pieceLength idx) ∧
    (downloadRun sha m net f id info idx).1 ≠ .err .pieceVerificationFailure := by
  have hin := lt_of_pieceCount hd.pieceLength hidx
  obtain ⟨h1, h2⟩ := C125_data_partial sha m net f id info idx c hd.total hT hin ho64 hi32 hd.pieceLength hs h
  have e : (c.drop (idx * info.pieceLength)).take (blockCount (pieceSize info.pieceLength idx c.length) * 16384) = piece c info.pieceLength idx :=
    hw.elim whole_take last_take
  rw [e] at h2
  refine ⟨fun data hdata => ?_, fun hv => h2 hv (hd.hashes idx hidx).symm⟩
  rw [← e]
  exact (h1 data hdata).1

/-- C125: with pieces of another length the requests go beyond the piece, if it is not the last one, and whoever answers them as they are made is always found to have
sent a wrong piece (or a collision of the hash is found). -/
theorem C125_beyond {sha : Bytes → Bytes} (m : Build) (net : Net) (f : Nat) (id : Bytes) {info : Info} {c : Bytes} (hd : Describes sha info c) {idx : Nat}
    (hT : c.length < 2 ^ 64) (ho64 : info.pieceLength * (idx + 1) < 2 ^ 64) (hi32 : idx < 2 ^ 32) (hs : pieceSize info.pieceLength idx c.length < 2 ^ 32)
    (hw : info.pieceLength % 16384 ≠ 0) (hl : info.pieceLength * (idx + 1) < c.length)
    (h : InReply (RightBlock c info.pieceLength) (.block info.pieceLength idx c.length) (downloadRun sha m net f id info idx).2.log) (data : Bytes)
    (hok : (downloadRun sha m net f id info idx).1 = .ok data) :
    data ≠ piece c info.pieceLength idx ∧ sha data = sha (piece c info.pieceLength idx) := by
  have hpl := hd.pieceLength
  have hl' := hl
  rw [Nat.mul_add, Nat.mul_comm info.pieceLength idx] at hl'
  have hin : idx * info.pieceLength < c.length := by omega
  obtain ⟨h1, -⟩ := C125_data_partial sha m net f id info idx c hd.total hT hin ho64 hi32 hpl hs h
  obtain ⟨rfl, h2⟩ := h1 data hok
  refine ⟨fun e => ?_, h2.trans (hd.hashes idx (by
    have := lt_count hpl hin
    rwa [Nat.mul_div_cancel _ hpl] at this))⟩
  have := congrArg List.length e
  have e1 : pieceSize info.pieceLength idx c.length = info.pieceLength := by unfold pieceSize; omega
  rw [e1] at this
  simp only [piece, List.length_take, List.length_drop, blockCount] at this
  omega

/-! ### Metadata -/

/-- What is right for the request for part `k` of the metadata. -/
theorem right_part (m : Build) {c : Bytes} {k : Nat} (hk : k < 2 ^ 64) {w y : Bytes} (hw : AskedFor m .info k w) (hy : RightPart c w y) : y = blockOf c k := by
  obtain ⟨q, msg, h1, rfl⟩ := hw
  simp only [Downloadable.request] at h1
  split at h1
  · rename_i ext _
    obtain ⟨m', h2, h3⟩ := C26_metadata_request ext k hk
    rw [newMetadata_eq ext k hk] at h1 h2
    simp only [Res.ok.injEq] at h1 h2
    rw [← h2, h1] at h3
    obtain ⟨ext', i, h4, rfl⟩ := hy
    obtain ⟨doc, b1, len, ⟨l1, -⟩, e1⟩ := h3
    obtain ⟨doc', b2, len', ⟨l2, -⟩, e2⟩ := h4
    rw [e1] at e2
    obtain ⟨-, e3⟩ := List.append_inj e2 (by omega)
    simp only [List.cons.injEq, true_and, List.append_nil] at e3
    obtain ⟨-, rfl⟩ := e3
    have := (C10_format_prefix_free _ _ doc doc [] [] b1 b2 rfl).1
    simp only [BVal.dict.injEq, List.cons.injEq, Prod.mk.injEq, BVal.int.injEq, true_and, and_true] at this
    have : i = k := by omega
    rw [this]
    rfl
  · cases h1

/-- **C125** for metadata: somebody who announces the size of the metadata and answers every request at most once, in order, with the part that is asked for, is never
found to have sent something else: an attempt that does not end early gives what the metadata say. -/
theorem C125_metadata_partial (m : Build) (net : Net) (f : Nat) (id hash c : Bytes) (hc : c.length < 2 ^ 64)
    (hsize : ∀ ms conn, Opens net hash none ms conn → sizeAfter ms = c.length)
    (h : InReply (RightPart c) .info (getInfoRun m net f id hash).2.log) :
    (∀ i, (getInfoRun m net f id hash).1 = .ok i → Info.fromBytes c = .ok i) ∧
    (∀ e, (getInfoRun m net f id hash).1 = .err (.info e) → Info.fromBytes c = .err e) := by
  unfold getInfoRun at h ⊢
  cases hi : initPeer net (Peer.new ⟨[], 0⟩ hash id) with
  | mk r p =>
    rw [hi] at h
    cases r with
    | ok u =>
      obtain ⟨ho, hck, hsz, hne⟩ := opened_state hi
      rw [hsize _ _ ho] at hsz
      have hcap : (Downloadable.info.capacity m p : Res DownloadableError Nat) = .ok (blockCount c.length) := by
        simp only [Downloadable.capacity]
        rw [stepByLen_spec _ _ (by decide), hsz]
        rfl
      have hpos : 0 < blockCount c.length := by unfold blockCount; omega
      have hsmall : ∀ k, k < blockCount c.length → k < 2 ^ 64 := fun k hk => by unfold blockCount at hk; omega
      have key := download_replied m net .info f p hpos hck hcap (opened_written hi) (right := RightPart c) (g := blockOf c)
        (fun k w y hk hw hy => right_part m (hsmall k hk) hw hy)
      rw [blocks_flatten, List.take_of_length_le (by unfold blockCount; omega)] at key
      simp only at h ⊢
      generalize Downloadable.info.download m net f p = q at key h
      obtain ⟨r, q⟩ := q
      cases r with
      | ok b =>
        simp only at h key ⊢
        rw [key h b rfl]
        cases Info.fromBytes c <;> simp [Res.mapErr]
      | err e' => exact ⟨(fun _ hd => by cases hd), (fun _ hd => by cases hd)⟩
      | panic => exact ⟨(fun _ hd => by cases hd), (fun _ hd => by cases hd)⟩
      | hang => exact ⟨(fun _ hd => by cases hd), (fun _ hd => by cases hd)⟩
    | err e' =>
      refine ⟨fun _ hd => by simp at hd, fun e hd => ?_⟩
      have ho := opens_forward p (some e') hi
      simp only [Res.err.injEq] at hd
      subst hd
      cases ho
    | panic => exact ⟨(fun _ hd => by cases hd), (fun _ hd => by cases hd)⟩
    | hang => exact ⟨(fun _ hd => by cases hd), (fun _ hd => by cases hd)⟩

/-! ### Checking conversations -/

/-- Is entry `i` of the history something else than an answer, or an answer to something? -/
def truthfulAt (ok : Bytes → Bytes → Bool) (d : Downloadable) (log : List Ev) (i : Nat) : Bool :=
  match log[i]? with
  | some (.got x) => !isAnswer d x || (askedOf (log.take i)).any (ok · x.contentData)
  | _ => true

/-- Is entry `i` of the history something else than an answer, or the answer that is due? -/
def inReplyAt (ok : Bytes → Bytes → Bool) (d : Downloadable) (log : List Ev) (i : Nat) : Bool :=
  match log[i]? with
  | some (.got x) => !isAnswer d x || ((askedOf (log.take i))[(repliesIn d (log.take i)).length]?.map (ok · x.contentData)).getD false
  | _ => true

theorem truthful_of {right : Bytes → Bytes → Prop} {ok : Bytes → Bytes → Bool} (hok : ∀ w x, ok w x = true → right w x) {d : Downloadable} {log : List Ev}
    (h : (List.range log.length).all (truthfulAt ok d log) = true) : Truthful right d log := by
  rintro pre x post rfl hx
  rw [List.all_eq_true] at h
  have := h pre.length (by simp)
  simp only [truthfulAt, List.getElem?_append_right (Nat.le_refl _), Nat.sub_self, List.getElem?_cons_zero, hx, Bool.not_true, Bool.false_or, List.take_left,
    List.any_eq_true] at this
  obtain ⟨w, hw, hr⟩ := this
  exact ⟨w, hw, hok w _ hr⟩

theorem inReply_of {right : Bytes → Bytes → Prop} {ok : Bytes → Bytes → Bool} (hok : ∀ w x, ok w x = true → right w x) {d : Downloadable} {log : List Ev}
    (h : (List.range log.length).all (inReplyAt ok d log) = true) : InReply right d log := by
  rintro pre x post rfl hx
  rw [List.all_eq_true] at h
  have := h pre.length (by simp)
  simp only [inReplyAt, List.getElem?_append_right (Nat.le_refl _), Nat.sub_self, List.getElem?_cons_zero, hx, Bool.not_true, Bool.false_or, List.take_left] at this
  cases hw : (askedOf pre)[(repliesIn d pre).length]? with
  | none => rw [hw] at this; simp at this
  | some w => rw [hw] at this; exact ⟨w, rfl, hok w _ (by simpa using this)⟩

/-! ### Somebody who answers twice -/

/-- Block 0 of the torrent of `twiceContent`. -/
def twiceBlock : Bytes := List.replicate 16384 1

def twiceContent : Bytes := twiceBlock ++ [2]

/-- A peer that answers the request for block 0 twice. -/
def twiceNet : Net := fun t => ⟨if t = 0 then sampleHandshake (List.replicate 20 7) ++ sampleExtension b!"5" ++ sampleUnchoke else
  if t = 24 then wire (blockMsg 0 twiceBlock 0) ++ wire (blockMsg 0 twiceBlock 0) else [], .up⟩

/-- A hash that only depends on the length. -/
def twiceSha : Bytes → Bytes := fun b => List.replicate 20 (if b.length ≤ 1000 then 7 else UInt8.ofNat b.length)

def twiceInfo : Info := ⟨none, some 16385, b!"a", 32768, List.replicate 20 1⟩

def twiceOk (w x : Bytes) : Bool := decide (w = (newRequest 0 0 16384).asBytes) && decide (x = twiceBlock)

theorem twice_length : twiceContent.length = 16385 := by rw [twiceContent, List.length_append, twiceBlock, List.length_replicate]; rfl

theorem twice_right (w x : Bytes) (h : twiceOk w x = true) : RightBlock twiceContent 32768 w x := by
  simp only [twiceOk, Bool.and_eq_true, decide_eq_true_eq] at h
  obtain ⟨rfl, rfl⟩ := h
  exact ⟨0, 0, 16384, C22_request_wire 0 0 16384 (by decide) (by decide) (by decide), by
    rw [Nat.zero_mul, Nat.zero_add, List.drop_zero, twiceContent, List.take_left' (by rw [twiceBlock, List.length_replicate])]⟩

theorem twice_describes : Describes twiceSha twiceInfo twiceContent := by
  have hl := twice_length
  refine ⟨hl.symm ▸ rfl, by decide, fun k hk => ?_⟩
  rw [hl] at hk
  have : k = 0 := by
    have : pieceCount 16385 twiceInfo.pieceLength = 1 := rfl
    omega
  subst this
  have : (piece twiceContent twiceInfo.pieceLength 0).length = 16385 := by
    simp [piece, hl, twiceInfo]
  simp only [twiceSha, this]
  rfl

set_option maxRecDepth 100000 in
theorem twice_run : (fun r : Res PeerManagerError Bytes × Peer => decide (r.1 = .err .pieceVerificationFailure) &&
    (List.range r.2.log.length).all (truthfulAt twiceOk (.block 32768 0 16385) r.2.log)) (downloadRun twiceSha .release twiceNet 30 (List.replicate 20 2) twiceInfo 0) =
      true := by decide +kernel

/-- **C125 is refuted** for somebody who answers a request twice: every answer is what the torrent holds at a place that was asked for before, but the second copy is
taken for the next block, as nobody looks at the place an answer states. -/
theorem C125_refuted : ∃ sha info c net, Describes sha info c ∧
    Truthful (RightBlock c info.pieceLength) (.block info.pieceLength 0 c.length) (downloadRun sha .release net 30 (List.replicate 20 2) info 0).2.log ∧
    (downloadRun sha .release net 30 (List.replicate 20 2) info 0).1 = .err .pieceVerificationFailure := by
  have h := twice_run
  simp only [Bool.and_eq_true, decide_eq_true_eq] at h
  refine ⟨twiceSha, twiceInfo, twiceContent, twiceNet, twice_describes, ?_, h.1⟩
  have hl := twice_length
  rw [hl]
  exact truthful_of twice_right h.2

/-! ### Pieces of other lengths -/

/-- The first request goes beyond the first piece: it is for all five bytes of the torrent. -/
def beyondNet : Net := fun t => ⟨if t = 0 then sampleHandshake (List.replicate 20 7) ++ sampleExtension b!"5" ++ sampleUnchoke else
  if t = 24 then blockMessage 0 0 [1, 2, 3, 4, 5] else [], .up⟩

/-- A hash that tells byte strings of up to five bytes by their length. -/
def beyondSha : Bytes → Bytes := fun b => List.replicate 20 (if b.length ≤ 5 then UInt8.ofNat b.length else 7)

def beyondInfo : Info := ⟨none, some 5, b!"a", 3, List.replicate 20 3 ++ List.replicate 20 2⟩

/-- **C125 is refuted** for pieces of three bytes in a torrent of five: somebody who answers the one request, once and with what the torrent holds there, is found to have
sent a wrong piece. -/
theorem C125_refuted_beyond : ∃ sha info c net, Describes sha info c ∧
    InReply (RightBlock c info.pieceLength) (.block info.pieceLength 0 c.length) (downloadRun sha .release net 30 (List.replicate 20 2) info 0).2.log ∧
    (downloadRun sha .release net 30 (List.replicate 20 2) info 0).1 = .err .pieceVerificationFailure := by
  refine ⟨beyondSha, beyondInfo, [1, 2, 3, 4, 5], beyondNet, ⟨rfl, by decide, fun k hk => ?_⟩, ?_, by decide +kernel⟩
  · have : pieceCount [1, 2, 3, 4, 5].length beyondInfo.pieceLength = 2 := rfl
    rcases k with _ | _ | k
    · decide +kernel
    · decide +kernel
    · simp only [List.length_cons, List.length_nil] at hk this; omega
  · refine inReply_of (ok := fun w x => decide (w = (newRequest 0 0 5).asBytes) && decide (x = [1, 2, 3, 4, 5])) ?_ (by decide +kernel)
    intro w x h
    simp only [Bool.and_eq_true, decide_eq_true_eq] at h
    obtain ⟨rfl, rfl⟩ := h
    exact ⟨0, 0, 5, C22_request_wire 0 0 5 (by decide) (by decide) (by decide), rfl⟩

/-- Non-vacuity: the same peer with a torrent that is one piece. -/
example : let info : Info := ⟨none, some 5, b!"a", 8, List.replicate 20 5⟩
    Describes beyondSha info [1, 2, 3, 4, 5] ∧
    InReply (RightBlock [1, 2, 3, 4, 5] 8) (.block 8 0 5) (downloadRun beyondSha .release beyondNet 30 (List.replicate 20 2) info 0).2.log ∧
    (downloadRun beyondSha .release beyondNet 30 (List.replicate 20 2) info 0).1 = .ok [1, 2, 3, 4, 5] := by
  refine ⟨⟨rfl, by decide, fun k hk => ?_⟩, ?_, by decide +kernel⟩
  · have : pieceCount 5 8 = 1 := rfl
    rcases k with _ | k
    · decide +kernel
    · exact absurd (this ▸ hk : k + 1 < 1) (by omega)
  · refine inReply_of (ok := fun w x => decide (w = (newRequest 0 0 5).asBytes) && decide (x = [1, 2, 3, 4, 5])) ?_ (by decide +kernel)
    intro w x h
    simp only [Bool.and_eq_true, decide_eq_true_eq] at h
    obtain ⟨rfl, rfl⟩ := h
    exact ⟨0, 0, 5, C22_request_wire 0 0 5 (by decide) (by decide) (by decide), rfl⟩

/-- The metadata of `tinyThree`. -/
def tinyDoc : Bytes := b!"d6:lengthi3e4:name1:f12:piece lengthi4e6:pieces20:" ++ List.replicate 20 0 ++ b!"e"

/-- The request for part 0 of the metadata, with the number 3 for metadata messages. -/
def partRequest : Bytes := (⟨20, (metadataRequestData 0).length + 2, .extension ⟨3, some 0, none, [], some 0, []⟩⟩ : Message).asBytes

def partNet : Net := fun t => ⟨if t = 0 then sampleOpening seven b!"71" else if t = 24 then sampleBlock tinyDoc else [], .up⟩

theorem partNet_opens : ∀ ms conn, Opens partNet seven none ms conn → sizeAfter ms = 71 := by
  intro ms conn h
  have hr : (initPeer partNet (Peer.new ⟨[], 0⟩ seven seven)).1 = .ok () ∧ sizeAfter (came (initPeer partNet (Peer.new ⟨[], 0⟩ seven seven)).2.log) = 71 := by decide +kernel
  have := opened_state (p := (initPeer partNet (Peer.new ⟨[], 0⟩ seven seven)).2) (by
    rw [← hr.1])
  rw [← (opens_det this.1 h).2.1]
  exact hr.2

/-- Non-vacuity of `C125_metadata_partial`: a peer that has these metadata. -/
example : InReply (RightPart tinyDoc) .info (getInfoRun .release partNet 30 seven seven).2.log ∧ (getInfoRun .release partNet 30 seven seven).1 = .ok tinyThree := by
  refine ⟨inReply_of (ok := fun w x => decide (w = partRequest) && decide (x = tinyDoc)) ?_ (by decide +kernel), by decide +kernel⟩
  intro w x h
  simp only [Bool.and_eq_true, decide_eq_true_eq] at h
  obtain ⟨rfl, rfl⟩ := h
  obtain ⟨m, h1, h2⟩ := C26_metadata_request 3 0 (by decide)
  rw [newMetadata_eq 3 0 (by decide), Res.ok.injEq] at h1
  rw [← h1] at h2
  exact ⟨3, 0, h2, by decide +kernel⟩

end RustBit
