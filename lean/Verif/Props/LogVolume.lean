/-
C101: how much a peer makes the program log.
-/
import Verif.Proofs.LogSize
import Verif.Proofs.LogTells
import Verif.Props.Endless

namespace RustBit
open Spec

/-! ### Reading a message -/

theorem framed_takes (net : Net) (c : Conn) (hb : c.buf ≠ []) : ∀ body id len, (readFramed net c).1 = some (body, id, len) →
    len = body.length ∧ Takes net c (readFramed net c).2 (body.length + 1) := by
  unfold readFramed
  have h4 := takes_read net c 4
  have hrc := read_cases net c 4
  cases hr : c.read net 4 with
  | mk a c1 =>
    rw [hr] at h4 hrc
    cases a with
    | none => intro _ _ _ h; cases h
    | some b4 =>
      simp only []
      have hpos : 1 ≤ b4.length := by
        rcases hrc with hrc | hrc
        · cases hrc
        · simp only [Prod.mk.injEq, Option.some.injEq] at hrc
          rw [hrc.1, List.length_take, Conn.after, List.length_append]
          have := List.length_pos_iff.mpr hb
          omega
      have h4 : Takes net c c1 1 := h4.le hpos
      have h1 := (takes_read net c1 1).le (Nat.zero_le _)
      cases hr1 : c1.read net 1 with
      | mk a c2 =>
        rw [hr1] at h1
        have h12 : Takes net c c2 1 := h4.trans h1
        cases a with
        | none => intro _ _ _ h; cases h
        | some b1 =>
          simp only []
          split
          · intro _ _ _ h; cases h; exact ⟨rfl, h12⟩
          · have hb := takes_bodyLoop net 39 c2 (ofBe (padTo 4 b4) - 1)
            cases hl : bodyLoop net 39 c2 (ofBe (padTo 4 b4) - 1) with
            | mk a c3 =>
              rw [hl] at hb
              cases a with
              | none => intro _ _ _ h; cases h
              | some body =>
                intro _ _ _ h
                cases h
                obtain ⟨e, h3⟩ := hb.2 body rfl
                rw [e]
                exact ⟨rfl, by rw [Nat.add_comm]; exact h12.trans h3⟩

theorem hasMessages_ne {net : Net} {c : Conn} (h : (hasMessages net c).1 = true) : (hasMessages net c).2.buf ≠ [] := by
  unfold hasMessages at h ⊢
  rcases peek_cases net c 1 with e | e
  · rw [e] at h; cases h
  · rw [e] at h ⊢
    simp only [ne_eq, decide_not, Bool.not_eq_true', decide_eq_false_iff_not] at h ⊢
    intro hn
    rw [hn] at h
    exact h rfl

/-- A message that is read is as long as it says, and takes at least one byte off the connection, and at least as many as its body has. -/
theorem message_takes (net : Net) (c : Conn) (body : Bytes) (id : UInt8) (len : Nat) (h : (readStream net c).1 = some (body, id, len)) :
    len = body.length ∧ ∃ n, 1 ≤ n ∧ body.length ≤ n ∧ Takes net c (readStream net c).2 n := by
  have hfull := (takes_readStream net c).2 body id len h
  unfold readStream at h hfull ⊢
  have h0 : Takes net c (c.setReadTimeout net).2 0 := takes_advance net c
  cases hs : c.setReadTimeout net with
  | mk b c0 =>
    rw [hs] at h0 h hfull
    cases b with
    | false => cases h
    | true =>
      simp only [] at h hfull ⊢
      have h1 := h0.trans (takes_hasMessages net c0)
      have hne : (hasMessages net c0).1 = true → _ := hasMessages_ne
      cases hm : hasMessages net c0 with
      | mk b c1 =>
        rw [hm] at h1 h hne hfull
        cases b with
        | false => cases h
        | true =>
          simp only [] at h hfull ⊢
          have hne := hne rfl
          have h2 := h1.trans (takes_peek net c1 68)
          have hne2 : (c1.peek net 68).2.buf ≠ [] := by
            rw [peek_conn, Conn.advance]
            exact fun e => hne (List.append_eq_nil_iff.mp e).1
          cases hp : c1.peek net 68 with
          | mk a c2 =>
            rw [hp] at h2 h hne2 hfull
            have framed : (readFramed net c2).1 = some (body, id, len) →
                len = body.length ∧ ∃ n, 1 ≤ n ∧ body.length ≤ n ∧ Takes net c (readFramed net c2).2 n := by
              intro h
              obtain ⟨e, ht⟩ := framed_takes net c2 hne2 body id len h
              exact ⟨e, body.length + 1, by omega, by omega, by simpa using h2.trans ht⟩
            cases a with
            | none => exact framed h
            | some p =>
              simp only [] at h hfull ⊢
              split
              · rename_i h68
                rw [if_pos h68] at h hfull
                cases hr : c2.read net 68 with
                | mk a c3 =>
                  rw [hr] at h hfull
                  cases a with
                  | none => cases h
                  | some bs =>
                    simp only [Option.some.injEq, Prod.mk.injEq] at h hfull
                    have hl : body.length = 68 := by
                      rw [← h.1]
                      have hrc := read_cases net c2 68
                      rw [hr] at hrc
                      rcases hrc with hrc | hrc
                      · cases hrc
                      · simp only [Prod.mk.injEq, Option.some.injEq] at hrc
                        have : bs.length ≤ 68 := by rw [hrc.1, List.length_take]; omega
                        unfold padTo
                        rw [List.length_append, List.length_replicate]
                        omega
                    exact ⟨by rw [hl]; exact h.2.2.symm, body.length, by omega, Nat.le_refl _, hfull⟩
              · rename_i h68
                rw [if_neg h68] at h
                exact framed h

/-! ### What is logged for a message -/

/-- What the texts of the operating system and of the decoder can be. -/
structure LogEnv.Short (env : LogEnv) (shown : Nat → Bool) : Prop where
  pos : ∀ c, env.pos c < 2 ^ 64
  err : ∀ k, ((env.err k).debug shown).length ≤ 200

theorem decodeLog_cost {env : LogEnv} {shown : Nat → Bool} (he : env.Short shown) (c : Bytes) : logCost shown (decodeLog env c) ≤ 130 + c.length ∧
    ∀ v n, Decoder.decode c = .ok (v, n) → decodeLog env c = [] := by
  refine ⟨?_, fun v n h => by rw [decodeLog, h]⟩
  unfold decodeLog
  split
  · rename_i pos h
    have h1 := (decode_err _).1 _ _ _ h
    have h2 := decimal_length_le pos
    simp only [errSize] at h1
    simp only [logCost_cons, logCost_nil, LogRec.cost, LogRec.args, List.length_append]
    show 43 + _ + 66 + 0 ≤ _
    omega
  · have h2 := decimal_u64_length (he.pos c)
    simp only [logCost_cons, logCost_nil, LogRec.cost, LogRec.args, List.length_append]
    show 44 + _ + 66 + 0 ≤ _
    omega
  · rw [logCost_nil]; omega

theorem noIntegers_cost (shown : Nat → Bool) : ∀ (d : List (Bytes × Metainfo)), IntsFitEntries d → logCost shown (noIntegers d) ≤ 80 * unitsEntries d
  | [], _ => by simp [noIntegers, logCost]
  | (k, v) :: t, h => by
    have ih := noIntegers_cost shown t h.2
    have hv := debug_length shown v h.1
    have hk : noIntegers ((k, v) :: t) = noIntegers t ∨ noIntegers ((k, v) :: t) = .noExtensionValue v :: noIntegers t := by
      cases v with
      | integer n => exact .inl rfl
      | _ => exact .inr rfl
    have hu : 1 ≤ v.units := by cases v <;> simp only [Metainfo.units] <;> omega
    simp only [unitsEntries]
    rcases hk with hk | hk <;> rw [hk]
    · omega
    · simp only [logCost_cons, LogRec.cost, LogRec.args, List.length_append]
      have : (b!"No extension value found from ").length = 30 := rfl
      omega

theorem fitEntries_mapGet {d : List (Bytes × Metainfo)} (h : IntsFitEntries d) {k : Bytes} {v : Metainfo} (hv : mapGet d k = some v) : IntsFit v := by
  induction d with
  | nil => cases hv
  | cons e t ih =>
    obtain ⟨k', v'⟩ := e
    rw [mapGet] at hv
    split at hv
    · simp only [Option.some.injEq] at hv; subst hv; exact h.1
    · exact ih h.2 hv

theorem extensionLog_cost {env : LogEnv} {shown : Nat → Bool} (he : env.Short shown) (body : Bytes) :
    logCost shown (extensionLog env body) ≤ 80 * body.length + 498 := by
  unfold extensionLog
  cases body with
  | nil => rw [show (sliceFrom ([] : Bytes) 1 : Res Bytes Bytes) = .panic from rfl]; simp [logCost]
  | cons x t =>
    rw [show (sliceFrom (x :: t) 1 : Res Bytes Bytes) = .ok t by simp [sliceFrom]]
    simp only [logCost_append]
    obtain ⟨h1, h2⟩ := decodeLog_cost he t
    simp only [List.length_cons]
    cases hd : Decoder.decode t with
    | ok a =>
      obtain ⟨v, n⟩ := a
      rw [h2 v n hd]
      simp only [logCost_nil]
      have hfit := C08_ints_fit t v n hd
      have hn : n ≤ t.length := decode_ok_le hd
      have hu := C90_value t v n hd
      cases v with
      | dictionary d =>
        simp only [Metainfo.getValueFromDict, Metainfo.getDictContent, Res.bind_ok]
        simp only [Metainfo.units] at hu
        cases hm : mapGet d b!"m" with
        | none => simp only [okValue, logCost_nil]; omega
        | some w =>
          have h3 := units_mapGet hm
          have h4 := fitEntries_mapGet hfit hm
          simp only [okValue]
          cases w with
          | dictionary e =>
            have h5 := noIntegers_cost shown e h4
            simp only [Metainfo.units] at h3
            simp only [Option.getD_some]
            omega
          | _ => simp [noIntegers, logCost]
      | _ => simp [Metainfo.getValueFromDict, Metainfo.getDictContent, okValue, logCost]
    | err e =>
      have h3 := (decode_err _).1 _ _ _ hd
      have h4 := display_length e
      have h5 := debugStr_length shown e.display
      simp only [logCost_cons, logCost_nil, LogRec.cost, LogRec.args]
      omega
    | panic => simp only [logCost_nil]; omega
    | hang => simp only [logCost_nil]; omega

theorem applyLog_cost (shown : Nat → Bool) {p : Peer} (hid : p.id.length ≤ 20) {body : Bytes} {len : Nat} {id : UInt8} {m : Message}
    (hm : Message.newRaw body len id = .ok m) : logCost shown (p.applyLog m) ≤ 519 + len := by
  have hD := debugStr_length shown p.id
  obtain ⟨-, h2, h3⟩ := newRaw_id hm
  have hgot : ∀ i, (LogRec.gotMessage p.id i).cost shown ≤ 217 := by
    intro i
    have hn : (LogRec.messageName i).length ≤ 9 := by
      unfold LogRec.messageName
      repeat' split
      all_goals decide
    simp only [LogRec.cost, LogRec.args, List.length_append]
    show 5 + _ + 7 + _ + 8 + 66 ≤ _
    omega
  unfold Peer.applyLog
  split
  · rw [logCost_cons, logCost_nil]; have := hgot m.id; omega
  · split
    · rw [logCost_cons]
      have h4 := hgot m.id
      have h5 : logCost shown (p.contentLog m) ≤ 302 + len := by
        unfold Peer.contentLog
        split
        · rw [logCost_nil]; omega
        · rw [logCost_nil]; omega
        · rw [logCost_nil]; omega
        · rename_i hid' _ hb he hh
          have hc : (m.content.debug shown).length ≤ 29 := by
            have hs := contentOf_shape h3
            cases hcont : m.content with
            | interested => rw [ContentType.debug]; decide
            | nothing => rw [ContentType.debug]; decide
            | bitfield b => exact absurd hcont (hb b)
            | extension e => exact absurd hcont (he e)
            | handshake h => exact absurd hcont (hh h)
            | request r =>
              have := hs.1.mp ⟨r, hcont⟩
              obtain ⟨e1, -, -⟩ := newRaw_id hm
              rw [e1] at hid'
              rcases this with rfl | rfl <;> exact absurd hid' (by decide)
          have h6 := decimal_length_le m.length
          have h7 := decimal_byte_length m.id
          simp only [logCost_cons, logCost_nil, LogRec.cost, LogRec.args, Message.debug, List.length_append]
          show 5 + _ + 39 + (14 + _ + 10 + _ + 11 + _ + 2) + 66 + 0 ≤ _
          omega
      omega
    · rw [logCost_nil]; omega

/-- Reading and applying: nothing but what is logged for no message, or at most 1200 bytes for every byte that is taken off the connection. -/
theorem readLog_cost {env : LogEnv} {shown : Nat → Bool} (he : env.Short shown) (net : Net) {p : Peer} (hid : p.id.length ≤ 20) (no : List LogRec)
    (hno : logCost shown no ≤ 94) :
    (p.readLog env net no = no ∧ (readStream net p.conn).1 = none ∧ Takes net p.conn (readStream net p.conn).2 0) ∨
    ∃ n, 1 ≤ n ∧ Takes net p.conn (readStream net p.conn).2 n ∧ logCost shown (p.readLog env net no) ≤ 1200 * n := by
  unfold Peer.readLog
  have ht := (takes_readStream net p.conn).1
  have hmt := message_takes net p.conn
  cases hr : readStream net p.conn with
  | mk a c =>
    rw [hr] at ht hmt
    cases a with
    | none => exact .inl ⟨rfl, rfl, ht⟩
    | some x =>
      obtain ⟨body, id, len⟩ := x
      obtain ⟨e, n, h1, h2, h3⟩ := hmt body id len rfl
      refine .inr ⟨n, h1, h3, ?_⟩
      simp only [logCost_append]
      have h4 : logCost shown (newRawLog env body id) ≤ 80 * body.length + 498 := by
        unfold newRawLog
        split
        · exact extensionLog_cost he body
        · rw [logCost_nil]; omega
      cases hm : Message.newRaw body len id with
      | ok m =>
        have h5 := applyLog_cost shown (p := { p with conn := c }) hid hm
        simp only []
        omega
      | err e => simp only []; omega
      | panic => simp only [logCost_nil]; omega
      | hang => simp only [logCost_nil]; omega

theorem writeLog_cost {env : LogEnv} {shown : Nat → Bool} (he : env.Short shown) (net : Net) (p : Peer) (bytes : Bytes) (hb : bytes.length ≤ 70) :
    logCost shown (p.writeLog env net bytes) ≤ 650 := by
  unfold Peer.writeLog
  split
  · rw [logCost_nil]; omega
  · have h1 := he.err p.conn.t
    have h2 := debugBytes_length bytes
    simp only [logCost_cons, logCost_nil, LogRec.cost, LogRec.args, List.length_append]
    show 6 + _ + 19 + _ + 66 + 0 ≤ _
    omega

/-! ### An attempt -/

/-- What has been logged is paid for with bytes that were taken off the connection, but for `C` bytes. -/
def LogPaid (net : Net) (c : Conn) (L C : Nat) : Prop := L + 2000 * c.buf.length ≤ 2000 * (arrivals net 0 c.t).length + C

theorem LogPaid.step {net : Net} {c c' : Conn} {L C n x e : Nat} (h : LogPaid net c L C) (ht : Takes net c c' n) (hx : x ≤ 2000 * n + e) :
    LogPaid net c' (L + x) (C + e) := by
  unfold LogPaid Takes at *
  omega

theorem LogPaid.weaken {net : Net} {c : Conn} {L C L' C' : Nat} (h : LogPaid net c L C) (hl : L' ≤ L) (hc : C ≤ C') : LogPaid net c L' C' := by
  unfold LogPaid at *
  omega

theorem noMessage_cost (shown : Nat → Bool) (b : Bool) : logCost shown [.noMessage b] = 94 := rfl

theorem readAndApply_same (net : Net) (p : Peer) : (readAndApply net p).2.conn = (readStream net p.conn).2 ∧ (readAndApply net p).2.id = p.id := by
  refine ⟨readAndApply_conn net p, ?_⟩
  obtain ⟨c, h⟩ := readAndApply_cases net p
  rcases h with h | h | h | ⟨m, -, h⟩ <;> rw [h]
  exact (applyState_same _ m).2.2.2

theorem readyLoop_log {env : LogEnv} {shown : Nat → Bool} (he : env.Short shown) (net : Net) : ∀ (k : Nat) {p : Peer} {L C : Nat}, p.id.length ≤ 20 →
    LogPaid net p.conn L C →
    LogPaid net (readyLoop net k p).2.conn (L + logCost shown (readyLoopLog env net k p)) (C + 94 * k) ∧ (readyLoop net k p).2.id = p.id
  | 0, p, L, C, _, h => ⟨by simpa [readyLoop, readyLoopLog, logCost] using h, rfl⟩
  | k + 1, p, L, C, hid, h => by
    unfold readyLoop readyLoopLog
    obtain ⟨hc, hi⟩ := readAndApply_same net p
    have h1 : LogPaid net (readAndApply net p).2.conn (L + logCost shown (p.readLog env net [.noMessage false])) (C + 94) := by
      rw [hc]
      rcases readLog_cost he net hid [.noMessage false] (by rw [noMessage_cost]; omega) with ⟨e, -, ht⟩ | ⟨n, -, ht, hx⟩
      · rw [e, noMessage_cost]; exact h.step ht (by omega)
      · exact h.step ht (by omega)
    simp only [logCost_append]
    cases hr : readAndApply net p with
    | mk a p' =>
      rw [hr] at h1 hi
      dsimp only at h1 hi
      have stop : LogPaid net p'.conn (L + (logCost shown (p.readLog env net [.noMessage false]) + logCost shown [])) (C + 94 * (k + 1)) :=
        h1.weaken (by rw [logCost_nil]; omega) (by omega)
      cases a with
      | ok _ =>
        simp only []
        split
        · exact ⟨stop, hi⟩
        · obtain ⟨h2, h3⟩ := readyLoop_log he net k (p := p') (by rw [hi]; exact hid) h1
          exact ⟨h2.weaken (by omega) (by omega), by rw [h3, hi]⟩
      | err e => exact ⟨stop, hi⟩
      | panic => exact ⟨stop, hi⟩
      | hang => exact ⟨stop, hi⟩

theorem sendMessage_takes (net : Net) (p : Peer) (m : Message) : Takes net p.conn (p.sendMessage net m).conn 0 := by
  rw [sendMessage_conn, ← advance_eq_after]; exact takes_advance net _

theorem initPeer_log {env : LogEnv} {shown : Nat → Bool} (he : env.Short shown) (net : Net) {p : Peer} (hid : p.id.length ≤ 20)
    (hh : p.infoHash.length ≤ 20) (h : LogPaid net p.conn 0 0) :
    LogPaid net (initPeer net p).2.conn (logCost shown (initPeerLog env net p)) 2334 ∧ (initPeer net p).2.id = p.id := by
  have hw : (newHandshake p.infoHash p.id).asBytes.length ≤ 70 := by
    simp only [newHandshake, Message.asBytes, HandshakeMessage.asBytes, HandshakeMessage.new, List.flatten_cons, List.flatten_nil, List.length_append, List.append_nil]
    show 1 + (19 + (8 + _)) ≤ _
    omega
  unfold initPeer initPeerLog
  simp only [logCost_append]
  have h0 := h.step (sendMessage_takes net p (newHandshake p.infoHash p.id)) (e := 650) (Nat.le_trans (writeLog_cost he net p _ hw) (by omega))
  have hid0 : (p.sendMessage net (newHandshake p.infoHash p.id)).id = p.id := rfl
  generalize p.sendMessage net (newHandshake p.infoHash p.id) = q at h0 hid0
  generalize logCost shown (p.writeLog env net (newHandshake p.infoHash p.id).asBytes) = W at h0
  obtain ⟨hc, hi⟩ := readAndApply_same net q
  have h1 : LogPaid net (readAndApply net q).2.conn (0 + W + logCost shown (q.readLog env net [.noMessage true])) (0 + 650 + 94) := by
    rw [hc]
    rcases readLog_cost he net (p := q) (by rw [hid0]; exact hid) [.noMessage true] (by rw [noMessage_cost]; omega) with ⟨e, -, ht⟩ | ⟨n, -, ht, hx⟩
    · rw [e, noMessage_cost]; exact h0.step ht (by omega)
    · exact h0.step ht (by omega)
  cases hr : readAndApply net q with
  | mk a p' =>
    rw [hr] at h1 hi
    dsimp only at h1 hi
    rw [hid0] at hi
    have stop : LogPaid net p'.conn (W + (logCost shown (q.readLog env net [.noMessage true]) + logCost shown [])) 2334 :=
      h1.weaken (by rw [logCost_nil]; omega) (by omega)
    cases a with
    | ok _ =>
      simp only []
      split
      · exact ⟨stop, hi⟩
      · rw [logCost_append]
        have h2 := h1.step (sendMessage_takes net p' newInterested) (e := 650) (Nat.le_trans (writeLog_cost he net p' newInterested.asBytes (by decide)) (by omega))
        have hi2 : (p'.sendMessage net newInterested).id = p.id := hi
        generalize p'.sendMessage net newInterested = p2 at h2 hi2
        have h3 : LogPaid net (p2.sendMetadataHandshakeRequest net).2.conn _ _ := h2.step (takes_advance net p2.conn) (x := 0) (e := 0) (by omega)
        have hi3 : (p2.sendMetadataHandshakeRequest net).2.id = p.id := hi2
        cases hs : p2.sendMetadataHandshakeRequest net with
        | mk b p3 =>
          rw [hs] at h3 hi3
          dsimp only at h3 hi3
          cases b with
          | false => exact ⟨h3.weaken (by rw [logCost_nil]; omega) (by omega), hi3⟩
          | true =>
            obtain ⟨h4, h5⟩ := readyLoop_log he net 10 (p := p3) (by rw [hi3]; exact hid) h3
            simp only []
            exact ⟨h4.weaken (by omega) (by omega), by rw [h5]; exact hi3⟩
    | err e => exact ⟨stop, hi⟩
    | panic => exact ⟨stop, hi⟩
    | hang => exact ⟨stop, hi⟩

theorem encMap_two (a b : Bytes × Bytes) : (encMap [a, b]).length = (encStr a.1).length + a.2.length + (encStr b.1).length + b.2.length + 2 := by
  simp only [encMap, sortKeys, insertKey]
  split <;> simp <;> omega

theorem encMap_one (a : Bytes × Bytes) : (encMap [a]).length = (encStr a.1).length + a.2.length + 2 := by
  simp [encMap, sortKeys, insertKey]
  omega

theorem encUsize_short {n : Nat} (h : n < 2 ^ 64) : (encUsize n).length ≤ 22 := by
  have := decimal_u64_length h
  simp only [encUsize, List.length_cons, List.length_append, List.length_nil]
  omega

theorem extension_short {bytes : Bytes} {e : ExtensionMessage} (h : ExtensionMessage.fromBytes bytes = .ok e) : e.asBytes.length ≤ 64 := by
  unfold ExtensionMessage.fromBytes at h
  obtain ⟨b, -, h⟩ := bind_eq_ok h
  obtain ⟨⟨v, k⟩, hd, h⟩ := bind_eq_ok h
  obtain ⟨i, -, h⟩ := bind_eq_ok h
  obtain ⟨data, -, h⟩ := bind_eq_ok h
  simp only [Res.ok.injEq] at h
  subst h
  have hd' : Decoder.decode b = .ok (v, k) := by
    cases hx : Decoder.decode b <;> simp [hx, Res.mapErr] at hd
    rw [hd]
  have hf : ∀ key n, okValue (v.getIntegerFromDict key) = some n → n < 2 ^ 64 := fun key n hn => getIntegerFromDict_fits (C08_ints_fit b v k hd') hn
  have s1 : (encStr b!"piece").length = 7 := by decide
  have s2 : (encStr b!"msg_type").length = 10 := by decide
  have s3 : (encMap []).length = 2 := by decide
  unfold ExtensionMessage.asBytes
  simp only []
  rw [List.length_cons]
  cases hp : okValue (v.getIntegerFromDict b!"piece") with
  | none => cases hm : okValue (v.getIntegerFromDict b!"msg_type") with
    | none =>
      simp only [Option.map_none, Option.toList_none, List.append_nil, EVal.encode, encodeEntries, s3]
      omega
    | some y =>
      have h2 := encUsize_short (hf _ _ hm)
      simp only [Option.map_none, Option.map_some, Option.toList_none, Option.toList_some, List.nil_append, EVal.encode, encodeEntries, encMap_one]
      omega
  | some x =>
    have h1 := encUsize_short (hf _ _ hp)
    cases hm : okValue (v.getIntegerFromDict b!"msg_type") with
    | none =>
      simp only [Option.map_none, Option.map_some, Option.toList_none, Option.toList_some, List.append_nil, EVal.encode, encodeEntries, encMap_one]
      omega
    | some y =>
      have h2 := encUsize_short (hf _ _ hm)
      simp only [Option.map_some, Option.toList_some, List.singleton_append, EVal.encode, encodeEntries, encMap_two]
      omega

/-- What is asked for is short. -/
theorem request_short {m : Build} {d : Downloadable} {p : Peer} {i : Nat} {msg : Message}
    (h : (d.request m p i : Res DownloadableError Message) = .ok msg) : msg.asBytes.length ≤ 70 := by
  cases d with
  | info =>
    simp only [Downloadable.request] at h
    split at h
    · rename_i ext _
      unfold newMetadata at h
      simp only [] at h
      cases he : ExtensionMessage.fromBytes (ext :: metadataRequestData i) with
      | ok e =>
        rw [he] at h
        cases h
        have := extension_short he
        simp only [Message.asBytes, Message.contentBytes, List.length_append, beU32_length, List.length_cons, List.length_nil]
        omega
      | err e => rw [he] at h; cases h
      | panic => rw [he] at h; cases h
      | hang => rw [he] at h; cases h
    · cases h
  | block pl pi tl =>
    simp only [Downloadable.request, blockRequest] at h
    obtain ⟨off, -, h⟩ := bind_eq_ok h
    obtain ⟨po, -, h⟩ := bind_eq_ok h
    obtain ⟨len, -, h⟩ := bind_eq_ok h
    cases h
    simp only [newRequest, Message.asBytes, Message.contentBytes, RequestMessage.asBytes, List.length_append, beU32_length, List.length_cons, List.length_nil]
    omega

/-- The same for the loop: besides, there may be one request that has not been paid for, which the next message will pay for. -/
def LoopPaid (net : Net) (s : DState) (L C : Nat) : Prop :=
  s.buf.expectedSize ≤ s.buf.buffer.length + 1 ∧ s.peer.id.length ≤ 20 ∧
    LogPaid net s.peer.conn (L + 650 * (s.buf.buffer.length + 1 - s.buf.expectedSize)) C

/-- The state or the end of the loop, paid for. -/
def FlowLogPaid (net : Net) (L C : Nat) : Flow → Prop
  | .again s => LoopPaid net s L C
  | .done _ p => LogPaid net p.conn L C

theorem execTail_log {env : LogEnv} {shown : Nat → Bool} (he : env.Short shown) (m : Build) (net : Net) (d : Downloadable) {s : DState} {L C : Nat}
    (h : LoopPaid net s L C) : FlowLogPaid net (L + logCost shown (execTailLog env m net d s)) C (execTail m net d s) := by
  obtain ⟨h1, h2, h3⟩ := h
  have stop : LogPaid net s.peer.conn (L + logCost shown []) C := h3.weaken (by rw [logCost_nil]; omega) (Nat.le_refl _)
  unfold execTail execTailLog
  split
  · exact stop
  · split
    · exact stop
    · unfold MessageBuffer.requestNextMessage MessageBuffer.requestLog
      by_cases hx : (s.buf.isLenAsExpected || s.buf.isFull) = true
      · simp only [hx, if_true]
        split
        · exact stop
        · exact ⟨h1, h2, by rw [logCost_nil]; exact h3⟩
      · simp only [hx]
        cases hr : (d.request m s.peer s.buf.buffer.length : Res DownloadableError Message) with
        | ok msg =>
          simp only [Bool.false_eq_true, if_false]
          have hw := writeLog_cost he net s.peer msg.asBytes (request_short hr)
          have ht := sendMessage_takes net s.peer msg
          have hne : s.buf.expectedSize ≠ s.buf.buffer.length + 1 := by
            intro e
            apply hx
            rw [Bool.or_eq_true]
            exact .inl (by rw [MessageBuffer.isLenAsExpected, e]; exact beq_self_eq_true _)
          have h4 : LogPaid net (s.peer.sendMessage net msg).conn
              (L + logCost shown (s.peer.writeLog env net msg.asBytes) + 650 * (s.buf.buffer.length + 1 - (s.buf.expectedSize + 1))) C := by
            have := h3.step ht (x := 0) (e := 0) (by omega)
            exact this.weaken (by omega) (by omega)
          split
          · exact h4.weaken (by omega) (Nat.le_refl _)
          · exact ⟨by simp only []; omega, h2, h4⟩
        | err e => exact stop
        | panic => exact stop
        | hang => exact stop

theorem readMessage_same (net : Net) (p : Peer) : ∃ r, (p.readMessage net : Res DownloadableError (Option Message) × Peer) =
    (r, { p with conn := (readStream net p.conn).2 }) ∧ ((readStream net p.conn).1 = none → r = .ok none) := by
  unfold Peer.readMessage
  cases h : readStream net p.conn with
  | mk a c =>
    cases a with
    | none => exact ⟨_, rfl, fun _ => rfl⟩
    | some x =>
      obtain ⟨body, id, len⟩ := x
      simp only []
      cases Message.newRaw body len id <;> exact ⟨_, rfl, fun h => by cases h⟩

theorem execStep_log {env : LogEnv} {shown : Nat → Bool} (he : env.Short shown) (m : Build) (net : Net) (d : Downloadable) {s : DState} {L C : Nat}
    (h : LoopPaid net s L C) : FlowLogPaid net (L + logCost shown (execStepLog env m net d s)) C (execStep m net d s) := by
  obtain ⟨h1, h2, h3⟩ := h
  obtain ⟨r, hr, hnone⟩ := readMessage_same net s.peer
  unfold execStep execStepLog
  rw [hr, logCost_append]
  rcases readLog_cost he net h2 [] (by rw [logCost_nil]; omega) with ⟨e, e2, ht⟩ | ⟨n, hn, ht, hx⟩
  · rw [hnone e2, e, logCost_nil]
    simp only []
    rw [Nat.zero_add]
    refine execTail_log he m net d ⟨h1, h2, ?_⟩
    exact h3.step ht (x := 0) (e := 0) (by omega)
  · have h4 : LogPaid net (readStream net s.peer.conn).2
        (L + logCost shown (s.peer.readLog env net []) + 650 * (s.buf.buffer.length + 1 + 1 - s.buf.expectedSize)) C := by
      have := h3.step ht (x := logCost shown (s.peer.readLog env net []) + 650) (e := 0) (by omega)
      exact this.weaken (by omega) (by omega)
    have stop : LogPaid net (readStream net s.peer.conn).2 (L + (logCost shown (s.peer.readLog env net []) + logCost shown [])) C :=
      h4.weaken (by rw [logCost_nil]; omega) (Nat.le_refl _)
    cases r with
    | ok o =>
      cases o with
      | none =>
        simp only []
        rw [← Nat.add_assoc]
        exact execTail_log he m net d ⟨h1, h2, h4.weaken (by simp only []; omega) (Nat.le_refl _)⟩
      | some msg =>
        simp only []
        rw [← Nat.add_assoc]
        have hlen : (s.buf.pushMessage d msg).expectedSize = s.buf.expectedSize ∧ s.buf.buffer.length ≤ (s.buf.pushMessage d msg).buffer.length ∧
            (s.buf.pushMessage d msg).buffer.length ≤ s.buf.buffer.length + 1 := by
          unfold MessageBuffer.pushMessage
          split
          · exact ⟨rfl, by simp, by simp⟩
          · exact ⟨rfl, by omega, by omega⟩
        obtain ⟨l1, l2, l3⟩ := hlen
        refine execTail_log he m net d ⟨by simp only []; omega, ?_, ?_⟩
        · simp only []
          rw [show (Peer.applyMessage _ msg).id = _ from (applyState_same _ msg).2.2.2]
          exact h2
        · simp only []
          rw [applyMessage_conn]
          exact h4.weaken (by simp only [l1]; omega) (Nat.le_refl _)
    | err e => exact stop
    | panic => exact stop
    | hang => exact stop

theorem execRun_log {env : LogEnv} {shown : Nat → Bool} (he : env.Short shown) (m : Build) (net : Net) (d : Downloadable) : ∀ (f : Nat) {s : DState}
    {L C : Nat}, LoopPaid net s L C → FlowLogPaid net (L + logCost shown (execRunLog env m net d f s)) C (execRun m net d f s)
  | 0, s, L, C, h => by
    unfold execRun execRunLog
    rw [logCost_nil]
    exact h
  | f + 1, s, L, C, h => by
    unfold execRun execRunLog
    have h1 := execStep_log he m net d h
    rw [logCost_append]
    cases hs : execStep m net d s with
    | again s' =>
      rw [hs] at h1
      simp only []
      rw [← Nat.add_assoc]
      exact execRun_log he m net d f h1
    | done r p =>
      rw [hs] at h1
      simp only [logCost_nil, Nat.add_zero]
      exact h1

theorem downloadLoop_log {env : LogEnv} {shown : Nat → Bool} (he : env.Short shown) (m : Build) (net : Net) (d : Downloadable) (f : Nat) {p : Peer}
    (hid : p.id.length ≤ 20) {L C : Nat} (h : LogPaid net p.conn L C) (hp : Paid net p 0) (full : Bytes → List LogRec) (x : Nat)
    (hfull : ∀ b, logCost shown (full b) ≤ x + b.length) :
    L + logCost shown (downloadLoopLog env m net d f p full) ≤ 2001 * (arrivals net 0 (d.download m net f p).2.conn.t).length + C + 650 + x := by
  unfold downloadLoopLog Downloadable.download
  cases hc : (d.capacity m p : Res DownloadableError Nat) with
  | ok cap =>
    simp only [execute]
    rw [logCost_append]
    have h1 := execRun_log he m net d f (s := ⟨p, ⟨[], cap, 0⟩, 0⟩) (L := L) (C := C + 650)
      ⟨by simp, hid, (h.step (takes_refl net _) (x := 650) (e := 650) (by omega)).weaken (by simp) (Nat.le_refl _)⟩
    have h2 := paid_execRun (m := m) (d := d) f (s := ⟨p, ⟨[], cap, 0⟩, 0⟩) hp
    cases hr : execRun m net d f ⟨p, ⟨[], cap, 0⟩, 0⟩ with
    | again s' =>
      rw [hr] at h1
      obtain ⟨-, -, h1⟩ := h1
      unfold LogPaid at h1
      simp only [logCost_nil]
      omega
    | done r p' =>
      rw [hr] at h1 h2
      obtain ⟨-, h2⟩ := h2
      have h1 : LogPaid net p'.conn _ _ := h1
      unfold LogPaid at h1
      cases r with
      | ok b =>
        have h3 := h2 b rfl
        have h4 := hfull b
        simp only []
        omega
      | err e => simp only [logCost_nil]; omega
      | panic => simp only [logCost_nil]; omega
      | hang => simp only [logCost_nil]; omega
  | err e => unfold LogPaid at h; simp only [logCost_nil]; omega
  | panic => unfold LogPaid at h; simp only [logCost_nil]; omega
  | hang => unfold LogPaid at h; simp only [logCost_nil]; omega

/-! ### C101 -/

/-- C101, metadata: an attempt to get the metadata from a peer, wherever it is cut off and whatever the peer sends, adds at most 4000 bytes to the
log, and 2001 for every byte the peer has sent. (Assumed: texts of operating system errors have at most 200 bytes.) Missing: the number of bytes
a peer sends is not bounded (refuted below); records of libraries. -/
theorem C101_metadata_partial {env : LogEnv} {shown : Nat → Bool} (he : env.Short shown) (m : Build) (net : Net) (f : Nat) {peerId hash : Bytes}
    (hid : peerId.length ≤ 20) (hh : hash.length ≤ 20) (trs : List (LogTime × LogRec)) (ht : ∀ x ∈ trs, x.1.Valid)
    (hlog : trs.map Prod.snd = getInfoLog env m net f peerId hash) :
    (trs.map fun x => x.2.line shown x.1).flatten.length ≤ 2001 * (arrivals net 0 (getInfoRun m net f peerId hash).2.conn.t).length + 4000 := by
  refine Nat.le_trans (lines_length shown trs ht) ?_
  rw [hlog]
  unfold getInfoLog getInfoRun
  rw [logCost_append]
  obtain ⟨h1, h2⟩ := initPeer_log he net (p := Peer.new ⟨[], 0⟩ hash peerId) hid hh (by simp [LogPaid, Peer.new])
  have h3 : Paid net (initPeer net (Peer.new ⟨[], 0⟩ hash peerId)).2 0 := paid_initPeer (paid_new net hash peerId)
  cases hr : initPeer net (Peer.new ⟨[], 0⟩ hash peerId) with
  | mk a p =>
    rw [hr] at h1 h2 h3
    dsimp only at h1 h2 h3
    have hid' : p.id.length ≤ 20 := by rw [h2]; exact hid
    cases a with
    | ok _ =>
      simp only []
      have h4 := downloadLoop_log he m net .info f hid' h1 h3 (decodeLog env) 130 (fun b => (decodeLog_cost he b).1)
      cases hd : Downloadable.info.download m net f p with
      | mk r p' =>
        rw [hd] at h4
        dsimp only at h4
        cases r <;> simp only [] <;> omega
    | err e => unfold LogPaid at h1; simp only [logCost_nil]; omega
    | panic => unfold LogPaid at h1; simp only [logCost_nil]; omega
    | hang => unfold LogPaid at h1; simp only [logCost_nil]; omega

/-- C101, pieces: the same for an attempt to download a piece. -/
theorem C101_piece_partial {sha : Bytes → Bytes} (hsha : ∀ b, (sha b).length = 20) {env : LogEnv} {shown : Nat → Bool} (he : env.Short shown) (m : Build)
    (net : Net) (f : Nat) {peerId endpoint : Bytes} (hid : peerId.length ≤ 20) (hep : endpoint.length ≤ 21) (info : Info) {idx : Nat} (hidx : idx < 2 ^ 64)
    (trs : List (LogTime × LogRec)) (ht : ∀ x ∈ trs, x.1.Valid) (hlog : trs.map Prod.snd = downloadRunLog sha env m net f peerId endpoint info idx) :
    (trs.map fun x => x.2.line shown x.1).flatten.length ≤
      2001 * (arrivals net 0 (downloadRun sha m net f peerId info idx).2.conn.t).length + 4000 := by
  refine Nat.le_trans (lines_length shown trs ht) ?_
  rw [hlog]
  unfold downloadRunLog downloadRun
  rw [logCost_append]
  have hh : (info.computeInfoHash sha).length ≤ 20 := by rw [show (info.computeInfoHash sha).length = 20 from hsha _]; omega
  obtain ⟨h1, h2⟩ := initPeer_log he net (p := Peer.new ⟨[], 0⟩ (info.computeInfoHash sha) peerId) hid hh (by simp [LogPaid, Peer.new])
  have h3 : Paid net (initPeer net (Peer.new ⟨[], 0⟩ (info.computeInfoHash sha) peerId)).2 0 := paid_initPeer (paid_new net _ peerId)
  cases hr : initPeer net (Peer.new ⟨[], 0⟩ (info.computeInfoHash sha) peerId) with
  | mk a p =>
    rw [hr] at h1 h2 h3
    dsimp only at h1 h2 h3
    have h2 : p.id = peerId := h2
    have hid' : p.id.length ≤ 20 := by rw [h2]; exact hid
    have hD := debugStr_length shown p.id
    have hE := debugStr_length shown endpoint
    have hI := decimal_u64_length hidx
    have hstart : (LogRec.startDownload p.id idx endpoint).cost shown ≤ 373 := by
      simp only [LogRec.cost, LogRec.args, List.length_append]
      show 18 + _ + 7 + _ + 11 + _ + 66 ≤ _
      omega
    have hdone : (LogRec.completedDownload p.id idx endpoint).cost shown ≤ 379 := by
      simp only [LogRec.cost, LogRec.args, List.length_append]
      show 21 + _ + 11 + _ + 11 + _ + 66 ≤ _
      omega
    cases a with
    | ok _ =>
      simp only []
      rw [logCost_cons]
      cases htot : (info.getTotalLength m : Res PeerManagerError Nat) with
      | ok total =>
        simp only []
        have h4 := downloadLoop_log he m net (.block info.pieceLength idx total) f hid' h1 h3 (fun _ => [.completedDownload p.id idx endpoint]) 379
          (fun b => by rw [logCost_cons, logCost_nil]; omega)
        cases hd : (Downloadable.block info.pieceLength idx total).download m net f p with
        | mk r p' =>
          rw [hd] at h4
          dsimp only at h4
          cases r <;> simp only [] <;> omega
      | err e => unfold LogPaid at h1; simp only [logCost_nil]; omega
      | panic => unfold LogPaid at h1; simp only [logCost_nil]; omega
      | hang => unfold LogPaid at h1; simp only [logCost_nil]; omega
    | err e => unfold LogPaid at h1; simp only [logCost_nil]; omega
    | panic => unfold LogPaid at h1; simp only [logCost_nil]; omega
    | hang => unfold LogPaid at h1; simp only [logCost_nil]; omega

/-- Non-vacuity: an environment, and what is logged of a peer that sends nothing and cannot be written to. -/
def quietEnv : LogEnv := ⟨fun _ => 0, fun _ => .os 32 ⟨b!"BrokenPipe", by decide⟩ b!"Broken pipe"⟩

example (shown : Nat → Bool) : quietEnv.Short shown := ⟨fun _ => by show 0 < 2 ^ 64; decide, fun _ => by
  have := debugStr_length shown b!"Broken pipe"
  simp only [quietEnv, IoError.debug, List.length_append]
  show 11 + 2 + 8 + 10 + 11 + _ + 2 ≤ 200
  have h : (b!"Broken pipe").length = 11 := rfl
  omega⟩

example : ((getInfoLog quietEnv .debug (fun _ => ⟨[], .fail⟩) 5 b!"-RB-" b!"hash").map fun r => LogRec.line (fun _ => true) ⟨2024, 1, 2, 3, 4, 5, 678⟩ r)
    = [b!"src/peer/stream.rs:151 2024-01-02T03:04:05.678 [ERROR] - Error Os { code: 32, kind: BrokenPipe, message: \"Broken pipe\" } in writing buffer " ++
        b!"[19, 66, 105, 116, 84, 111, 114, 114, 101, 110, 116, 32, 112, 114, 111, 116, 111, 99, 111, 108, 0, 0, 0, 0, 0, 16, 0, 0, " ++
        b!"104, 97, 115, 104, 45, 82, 66, 45]\n",
       b!"src/peer/manager.rs:89 2024-01-02T03:04:05.678 [DEBUG] - No message available to read\n"] := by decide +kernel

/-! ### A peer can fill the disk -/

theorem logs_of_handled {env : LogEnv} {net : Net} {p : Peer} {no : List LogRec} {body : Bytes} {id : UInt8} {len : Nat} {c : Conn} {msg : Message}
    (hr : readStream net p.conn = (some (body, id, len), c)) (hm : Message.newRaw body len id = .ok msg) (hid : msg.id = 1 ∨ msg.id = 20) :
    1 ≤ (p.readLog env net no).length := by
  unfold Peer.readLog
  rw [hr]
  simp only [hm, List.length_append]
  have : 1 ≤ (Peer.applyLog { p with conn := c } msg).length := by
    unfold Peer.applyLog
    rcases hid with h | h <;> rw [h]
    · rw [if_pos (by decide)]; simp
    · rw [if_neg (by decide), if_pos (by decide)]; simp
  omega

/-- What is in the messages of the endless peer. -/
theorem endless_ids {j : Nat} {msg : Message} (h : Handled (endlessMsgs j) msg) : msg.id = 1 ∨ msg.id = 20 := by
  have := (newRaw_id h.2).1
  rw [this]
  unfold endlessMsgs
  split
  · exact .inr rfl
  · exact .inl rfl

/-- The loop never ends, and logs something with every message. -/
theorem endless_logs (env : LogEnv) (m : Build) {hash : Bytes} (h : hash.length = 20) (d : Downloadable)
    (hfil : ∀ msg, msg.isExtensionData = false → msg.isRequest = false → d.messageFilter msg = false)
    (hreq : ∀ p : Peer, mapGet p.extensions b!"ut_metadata" = some 3 → ∃ msg, (d.request m p 0 : Res DownloadableError Message) = .ok msg) :
    ∀ (f : Nat) (s : DState) (k j : Nat), Reads (endlessPeer hash) ⟨[], 3⟩ endlessMsgs k j s.peer.conn → s.buf.buffer = [] → s.buf.capacity ≠ 0 →
      s.peer.choked = false → mapGet s.peer.extensions b!"ut_metadata" = some 3 →
      f ≤ (execRunLog env m (endlessPeer hash) d f s).length := by
  have hs := (endless_opening h).stream
  intro f
  induction f with
  | zero => intro s _ _ _ _ _ _ _; exact Nat.zero_le _
  | succ f ih =>
    intro s k j hr hbuf hcap hck hex
    have hne : (s.peer.conn.after (endlessPeer hash) 2).buf ≠ [] := by
      intro e
      have h1 := hr.after 2
      have h2 := hr.le_full hs
      have h3 := streamed_lt endlessMsgs (show j < k + 2 by omega)
      rw [e, List.append_nil, List.nil_append, endless_arrivals] at h1
      rw [← h1] at h3
      have := wire_length_ge (endlessMsgs j)
      omega
    obtain ⟨msg, hm, hm1, hm2, hm3⟩ := endless_msg j
    obtain ⟨n, d', hr1, hr2, -⟩ := poll_message hs hr hm.1 hne
    have hpush : s.buf.pushMessage d msg = s.buf := by simp [MessageBuffer.pushMessage, hfil msg hm1 hm2]
    have hstep : execStep m (endlessPeer hash) d s = execTail m (endlessPeer hash) d ⟨({ s.peer with conn := d' } : Peer).applyMessage msg, s.buf, 0⟩ := by
      unfold execStep Peer.readMessage
      rw [hr1]
      simp only [hm.2, hpush]
    have hlog : 1 ≤ (execStepLog env m (endlessPeer hash) d s).length := by
      unfold execStepLog
      rw [List.length_append]
      have := logs_of_handled (env := env) (no := []) hr1 hm.2 (endless_ids hm)
      omega
    obtain ⟨a1, a2⟩ := hm3 { s.peer with conn := d' } hck hex
    rw [execRunLog, hstep, List.length_append]
    obtain ⟨s', e0, e1, e2, -, e4⟩ := execTail_again (m := m) (net := endlessPeer hash) (d := d)
      (s := ⟨({ s.peer with conn := d' } : Peer).applyMessage msg, s.buf, 0⟩)
      (by simp only [MessageBuffer.isFull, hbuf, List.length_nil]; exact beq_eq_false_iff_ne.mpr (Ne.symm hcap))
      a1 (by simp)
      (by
        simp only [hbuf, List.length_nil]
        exact hreq _ a2)
    rw [e0]
    simp only []
    have : f ≤ (execRunLog env m (endlessPeer hash) d f s').length := by
      rcases e4 with e4 | ⟨x, e4⟩
      · refine ih s' (k + n) (j + 1) ?_ (by rw [e1]; exact hbuf) (by rw [e2]; exact hcap) (by rw [e4]; exact a1) (by rw [e4]; exact a2)
        rw [e4, applyMessage_conn]
        exact hr2
      · refine ih s' (k + n + 1) (j + 1) ?_ (by rw [e1]; exact hbuf) (by rw [e2]; exact hcap) (by rw [e4]; exact a1) (by rw [e4]; exact a2)
        rw [e4]
        simp only [applyMessage_conn]
        exact reads_advance hr2
    omega

/-- The full C101 is false: there is a peer that makes the log as long as it likes in a single attempt to get the metadata, by sending one message
after another. Nothing limits the log file. -/
theorem C101_refuted (m : Build) {hash : Bytes} (h : hash.length = 20) (peerId : Bytes) (env : LogEnv) (shown : Nat → Bool) :
    ∃ net, ∀ size, ∃ f, ∀ trs : List (LogTime × LogRec), trs.map Prod.snd = getInfoLog env m net f peerId hash →
      size ≤ (trs.map fun x => x.2.line shown x.1).flatten.length := by
  refine ⟨endlessPeer hash, fun size => ⟨size, fun trs hlog => ?_⟩⟩
  obtain ⟨k, j, p, h1, h2, h3, h4, h5⟩ := endless_opens h peerId
  have hcap : (Downloadable.info.capacity m p : Res DownloadableError Nat) = .ok 1 := by
    simp only [Downloadable.capacity, h4]
    rfl
  have hs' := endless_logs env m h .info (fun msg a _ => a) (fun p hp => ⟨_, by simp only [Downloadable.request, hp]; exact newMetadata_eq 3 0 (by decide)⟩)
    size ⟨p, ⟨[], 1, 0⟩, 0⟩ k j h2 rfl (by simp) h3 h5
  have hlen : size ≤ trs.length := by
    rw [← List.length_map (f := Prod.snd), hlog]
    unfold getInfoLog
    rw [h1, List.length_append]
    simp only [downloadLoopLog, hcap, List.length_append]
    omega
  have hlines : ∀ l : List (LogTime × LogRec), l.length ≤ (l.map fun x => x.2.line shown x.1).flatten.length := by
    intro l
    induction l with
    | nil => simp
    | cons x t ih =>
      obtain ⟨y, e, -⟩ := line_split shown x.1 x.2
      simp only [List.map_cons, List.flatten_cons, List.length_append, List.length_cons, e, List.length_nil]
      omega
  exact Nat.le_trans hlen (hlines trs)

/-- C100 refuted for the names of the messages: an `interested` message of a peer is logged as a bitfield, and a bitfield as `??`. -/
theorem C100_refuted_name (shown : Nat → Bool) (p : Peer) :
    (∃ m, Message.newRaw [] 0 2 = .ok m ∧ bepName m.id.toNat = some "interested" ∧
      ∃ r ∈ p.applyLog m, r.args shown = b!"Peer " ++ debugStr shown p.id ++ b!" get a " ++ b!"BITFIELD" ++ b!" message") ∧
    ∀ bits : Bytes, ∃ m, Message.newRaw bits bits.length 5 = .ok m ∧ bepName m.id.toNat = some "bitfield" ∧
      ∃ r ∈ p.applyLog m, r.args shown = b!"Peer " ++ debugStr shown p.id ++ b!" get a " ++ b!"??" ++ b!" message" :=
  ⟨⟨⟨2, 0, .interested⟩, rfl, rfl, .gotMessage p.id 2, by simp [Peer.applyLog], rfl⟩,
    fun bits => ⟨⟨5, bits.length, .bitfield bits⟩, rfl, rfl, .gotMessage p.id 5, by simp [Peer.applyLog], rfl⟩⟩

end RustBit
