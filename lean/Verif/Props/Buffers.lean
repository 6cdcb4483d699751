/-
Property C91: what the client reserves and keeps for a peer.
-/
import Verif.Model.Buffers
import Verif.Props.Memory
import Verif.Props.Clock

namespace RustBit
open Spec

/-! ### Bytes taken off the connection -/

/-- Between the two states of the connection at least `n` bytes were taken off it. -/
def Takes (net : Net) (c c' : Conn) (n : Nat) : Prop :=
  c'.buf.length + n + (arrivals net 0 c.t).length ≤ c.buf.length + (arrivals net 0 c'.t).length

theorem Takes.trans {net : Net} {a b c : Conn} {m n : Nat} (h1 : Takes net a b m) (h2 : Takes net b c n) : Takes net a c (m + n) := by
  unfold Takes at *; omega

theorem Takes.le {net : Net} {a b : Conn} {m n : Nat} (h : Takes net a b m) (hn : n ≤ m) : Takes net a b n := by
  unfold Takes at *; omega

theorem takes_refl (net : Net) (c : Conn) : Takes net c c 0 := by unfold Takes; omega

theorem arrivals_succ_length (net : Net) (t : Nat) : (arrivals net 0 (t + 1)).length = (arrivals net 0 t).length + (net t).arrive.length := by
  rw [arrivals_add, List.length_append, arrivals_one, Nat.zero_add]

theorem takes_advance (net : Net) (c : Conn) : Takes net c (c.advance net) 0 := by
  unfold Takes Conn.advance
  rw [arrivals_succ_length, List.length_append]
  omega

theorem takes_peek (net : Net) (c : Conn) (n : Nat) : Takes net c (c.peek net n).2 0 := by
  rw [peek_conn]; exact takes_advance net c

theorem takes_read (net : Net) (c : Conn) (n : Nat) : Takes net c (c.read net n).2 (countOr0 (c.read net n).1) := by
  rcases read_cases net c n with h | h
  · rw [h, ← advance_eq_after]; exact takes_advance net c
  · rw [h, ← advance_eq_after]
    have := takes_advance net c
    unfold Takes at this ⊢
    simp only [countOr0, List.length_take, List.length_drop]
    simp only [Conn.advance] at this ⊢
    omega

theorem takes_hasMessages (net : Net) (c : Conn) : Takes net c (hasMessages net c).2 0 := by
  unfold hasMessages
  have := takes_peek net c 1
  cases h : c.peek net 1 with
  | mk a c' => rw [h] at this; cases a <;> exact this

theorem takes_peekAndRead (net : Net) (c : Conn) (length : Nat) :
    Takes net c (peekAndRead net c length).2 0 ∧
    ∀ body, (peekAndRead net c length).1 = some body → body.length = length ∧ Takes net c (peekAndRead net c length).2 length := by
  unfold peekAndRead
  have hp := takes_peek net c length
  cases h : c.peek net length with
  | mk r1 c1 =>
    rw [h] at hp
    simp only []
    split
    · have hr := takes_read net c1 length
      cases h2 : c1.read net length with
      | mk r2 c2 =>
        rw [h2] at hr
        simp only [] at hr ⊢
        split
        · rename_i hc
          refine ⟨hp.trans (hr.le (Nat.zero_le _)), fun body hb => ?_⟩
          rw [hc] at hr
          refine ⟨?_, by simpa using hp.trans hr⟩
          cases r2 with
          | none => simp only [Option.getD_none, Option.some.injEq] at hb; subst hb; exact hc
          | some b => simp only [Option.getD_some, Option.some.injEq] at hb; subst hb; exact hc
        · exact ⟨hp.trans (hr.le (Nat.zero_le _)), fun body hb => by cases hb⟩
    · exact ⟨hp, fun body hb => by cases hb⟩

theorem takes_bodyLoop (net : Net) : ∀ (k : Nat) (c : Conn) (length : Nat),
    Takes net c (bodyLoop net k c length).2 0 ∧
    ∀ body, (bodyLoop net k c length).1 = some body → body.length = length ∧ Takes net c (bodyLoop net k c length).2 length
  | 0, c, _ => ⟨takes_refl net c, fun body h => by cases h⟩
  | k + 1, c, length => by
    unfold bodyLoop
    have h := takes_peekAndRead net c length
    cases hp : peekAndRead net c length with
    | mk a c1 =>
      rw [hp] at h
      cases a with
      | some body => exact ⟨h.1, fun b hb => by cases hb; exact h.2 _ rfl⟩
      | none =>
        have ih := takes_bodyLoop net k c1 length
        exact ⟨h.1.trans ih.1, fun b hb => by have := ih.2 b hb; exact ⟨this.1, by simpa using h.1.trans this.2⟩⟩

theorem takes_readFramed (net : Net) (c : Conn) : Takes net c (readFramed net c).2 0 ∧
    ∀ body id len, (readFramed net c).1 = some (body, id, len) → Takes net c (readFramed net c).2 body.length := by
  unfold readFramed
  have h4 := (takes_read net c 4).le (Nat.zero_le _)
  cases hr : c.read net 4 with
  | mk a c1 =>
    rw [hr] at h4
    cases a with
    | none => exact ⟨h4, fun _ _ _ h => by cases h⟩
    | some b4 =>
      simp only []
      have h1 := (takes_read net c1 1).le (Nat.zero_le _)
      cases hr1 : c1.read net 1 with
      | mk a c2 =>
        rw [hr1] at h1
        have h12 : Takes net c c2 0 := h4.trans h1
        cases a with
        | none => exact ⟨h12, fun _ _ _ h => by cases h⟩
        | some b1 =>
          simp only []
          split
          · exact ⟨h12, fun _ _ _ h => by cases h; exact h12⟩
          · have hb := takes_bodyLoop net 39 c2 (ofBe (padTo 4 b4) - 1)
            cases hl : bodyLoop net 39 c2 (ofBe (padTo 4 b4) - 1) with
            | mk a c3 =>
              rw [hl] at hb
              cases a with
              | none => exact ⟨h12.trans hb.1, fun _ _ _ h => by cases h⟩
              | some body =>
                refine ⟨h12.trans hb.1, fun _ _ _ h => ?_⟩
                cases h
                obtain ⟨e, h3⟩ := hb.2 body rfl
                rw [e]
                simpa using h12.trans h3

/-- A message was on the connection: `read_stream` takes at least as many bytes as it returns. -/
theorem takes_readStream (net : Net) (c : Conn) : Takes net c (readStream net c).2 0 ∧
    ∀ body id len, (readStream net c).1 = some (body, id, len) → Takes net c (readStream net c).2 body.length := by
  unfold readStream
  have h0 : Takes net c (c.setReadTimeout net).2 0 := takes_advance net c
  cases hs : c.setReadTimeout net with
  | mk b c0 =>
    rw [hs] at h0
    cases b with
    | false => exact ⟨h0, fun _ _ _ h => by cases h⟩
    | true =>
      simp only []
      have h1 := h0.trans (takes_hasMessages net c0)
      cases hm : hasMessages net c0 with
      | mk b c1 =>
        rw [hm] at h1
        cases b with
        | false => exact ⟨h1, fun _ _ _ h => by cases h⟩
        | true =>
          simp only []
          have h2 := h1.trans (takes_peek net c1 68)
          have hpc := peek_cases net c1 68
          cases hp : c1.peek net 68 with
          | mk a c2 =>
            rw [hp] at h2 hpc
            have framed : Takes net c (readFramed net c2).2 0 ∧
                ∀ body id len, (readFramed net c2).1 = some (body, id, len) → Takes net c (readFramed net c2).2 body.length := by
              have h := takes_readFramed net c2
              exact ⟨h2.trans h.1, fun body id len e => by simpa using h2.trans (h.2 body id len e)⟩
            cases a with
            | none => exact framed
            | some p =>
              simp only []
              split
              · rename_i h68
                have h3 := takes_read net c2 68
                have hrc := read_cases net c2 68
                cases hr : c2.read net 68 with
                | mk a c3 =>
                  rw [hr] at h3 hrc
                  cases a with
                  | none => exact ⟨h2.trans h3, fun _ _ _ h => by cases h⟩
                  | some bs =>
                    refine ⟨h2.trans (h3.le (Nat.zero_le _)), fun _ _ _ h => ?_⟩
                    simp only [Option.some.injEq, Prod.mk.injEq] at h
                    obtain ⟨rfl, -, -⟩ := h
                    have hbs : bs.length = 68 := by
                      rcases hpc with hpc | hpc
                      · cases hpc
                      · rcases hrc with hrc | hrc
                        · cases hrc
                        · simp only [Prod.mk.injEq, Option.some.injEq] at hpc hrc
                          have hp68 := h68.1
                          rw [hpc.1, ← hpc.2, List.length_take] at hp68
                          rw [hrc.1, List.length_take, Conn.after, List.length_append]
                          omega
                    rw [padTo_of_length hbs]
                    simpa [countOr0] using h2.trans h3
              · exact framed

/-! ### What is made of a message -/

theorem extUnits_build (d : List (Bytes × Metainfo)) : extUnits (buildExtensionsMap d) ≤ unitsEntries d := by
  induction d with
  | nil => simp [buildExtensionsMap, extUnits, unitsEntries]
  | cons e t ih =>
    obtain ⟨k, v⟩ := e
    have hk : buildExtensionsMap ((k, v) :: t) = buildExtensionsMap t ∨ ∃ x, buildExtensionsMap ((k, v) :: t) = (k, x) :: buildExtensionsMap t := by
      cases v with
      | integer n => exact .inr ⟨_, rfl⟩
      | _ => exact .inl rfl
    simp only [unitsEntries]
    rcases hk with hk | ⟨x, hk⟩ <;> rw [hk]
    · omega
    · simp only [extUnits, List.map_cons, List.sum_cons] at ih ⊢
      omega

theorem units_mapGet {d : List (Bytes × Metainfo)} {k : Bytes} {v : Metainfo} (h : mapGet d k = some v) : v.units ≤ unitsEntries d := by
  induction d with
  | nil => cases h
  | cons e t ih =>
    obtain ⟨k', v'⟩ := e
    rw [mapGet] at h
    simp only [unitsEntries]
    split at h
    · simp only [Option.some.injEq] at h; subst h; omega
    · have := ih h; omega

/-- The names of the extensions come from the message. -/
theorem extUnits_of (v : Metainfo) : extUnits (ExtensionMessage.extensionsOf v) + 1 ≤ v.units := by
  unfold ExtensionMessage.extensionsOf
  cases v with
  | dictionary d =>
    simp only [Metainfo.getValueFromDict, Metainfo.getDictContent, Res.bind_ok, Metainfo.units]
    cases hm : mapGet d b!"m" with
    | none => simp [okValue, extUnits]
    | some w =>
      have h1 := units_mapGet hm
      simp only [okValue]
      cases w with
      | dictionary e =>
        simp only [Option.getD_some]
        have h2 := extUnits_build e
        simp only [Metainfo.units] at h1
        omega
      | _ => simp [buildExtensionsMap, extUnits]
  | _ => simp [Metainfo.getValueFromDict, Metainfo.getDictContent, okValue, extUnits, Metainfo.units]

theorem extension_units {bytes : Bytes} {e : ExtensionMessage} (h : ExtensionMessage.fromBytes bytes = .ok e) :
    e.data.length + extUnits e.extensions + 1 ≤ bytes.length := by
  unfold ExtensionMessage.fromBytes at h
  cases bytes with
  | nil => cases h
  | cons x t =>
    have hs1 : (sliceFrom (x :: t) 1 : Res Bytes Bytes) = .ok t := by simp [sliceFrom]
    rw [hs1] at h
    simp only [Res.bind_ok] at h
    cases hd : Decoder.decode t with
    | ok a =>
      obtain ⟨v, n⟩ := a
      rw [hd] at h
      simp only [Res.mapErr, Res.bind_ok, index, List.getElem?_cons_zero] at h
      have hn : n ≤ t.length := decode_ok_le hd
      have hs2 : (sliceFrom (x :: t) (n + 1) : Res Bytes Bytes) = .ok (t.drop n) := by simp [sliceFrom, hn]
      rw [hs2] at h
      simp only [Res.bind_ok, Res.ok.injEq] at h
      subst h
      have hv := extUnits_of v
      have hu := (units_of_decode _).1 t 0 v n hd
      simp only [List.length_drop, List.length_cons]
      rcases hu with ⟨-, rfl⟩ | hu
      · simp only [Metainfo.units] at hv; omega
      · omega
    | err e => rw [hd] at h; cases h
    | panic => rw [hd] at h; cases h
    | hang => rw [hd] at h; cases h

/-- What applying a message adds to the state of the peer, and keeping it to the messages. -/
theorem message_units {body : Bytes} {len : Nat} {id : UInt8} {msg : Message} (h : Message.newRaw body len id = .ok msg) (p : Peer) (d : Downloadable) :
    (p.applyMessage msg).units + (if d.messageFilter msg then 2 * msg.units else 0) ≤ p.units + 8 * body.length := by
  obtain ⟨-, -, hc⟩ := newRaw_id h
  unfold Message.contentOf at hc
  have hap : (p.applyMessage msg).units = (p.applyState msg).units := rfl
  rw [hap]
  -- the state changes only by bitfields and extension handshakes
  have same : ∀ c, msg.content = c → (∀ b, c ≠ .bitfield b) → (∀ e, c ≠ .extension e) → (p.applyState msg).units = p.units := by
    intro c e h1 h2
    unfold Peer.applyState Peer.applyContent
    rw [e]
    repeat' split
    all_goals first | rfl | (exfalso; rename_i hx; first | exact h1 _ rfl | exact h2 _ rfl) | skip
    all_goals simp_all
  split at hc
  · simp only [Res.ok.injEq] at hc
    rw [same _ hc.symm (by simp) (by simp)]
    cases d <;> simp [Downloadable.messageFilter, Message.isExtensionData, Message.isRequest, ← hc]
  · split at hc
    · simp only [Res.ok.injEq] at hc
      have hf : d.messageFilter msg = false := by
        cases d <;> simp [Downloadable.messageFilter, Message.isExtensionData, Message.isRequest, ← hc]
      have hb : (bitVector body).length = 8 * body.length := by
        unfold bitVector
        rw [List.length_flatMap]
        have : (fun b => (byteBits b).length) = fun _ => 8 := by funext b; rfl
        rw [this]
        clear h hc hf this hap same
        induction body with
        | nil => rfl
        | cons b t ih => simp only [List.map_cons, List.sum_cons, ih, List.length_cons]; omega
      have hp : (p.applyState msg).units ≤ p.units + 8 * body.length := by
        unfold Peer.applyState Peer.applyContent
        rw [← hc]
        simp only []
        repeat' split
        all_goals simp only [Peer.units]
        all_goals omega
      rw [hf]
      simpa using hp
    · split at hc
      · cases hr : (RequestMessage.fromBytes body : Res Bytes RequestMessage) with
        | ok r =>
          rw [hr] at hc
          simp only [Res.bind_ok, Res.ok.injEq] at hc
          rw [same _ hc.symm (by simp) (by simp)]
          have hl : r.blockData.length + 8 ≤ body.length := by
            unfold RequestMessage.fromBytes slice sliceFrom at hr
            by_cases h8 : 8 ≤ body.length
            · have h4 : 4 ≤ body.length := by omega
              simp only [h8, h4, Nat.zero_le, true_and, if_true, Res.bind_ok, Res.ok.injEq, show (4 : Nat) ≤ 8 by omega] at hr
              subst hr
              simp only [List.length_drop]
              omega
            · by_cases h4 : 4 ≤ body.length <;> simp [h8, h4] at hr
          have hu : msg.units = r.blockData.length + 1 := by unfold Message.units; rw [← hc]
          rw [hu]
          split <;> omega
        | err e => rw [hr] at hc; cases hc
        | panic => rw [hr] at hc; cases hc
        | hang => rw [hr] at hc; cases hc
      · split at hc
        · cases hr : ExtensionMessage.fromBytes body with
          | ok e =>
            rw [hr] at hc
            simp only [Res.bind_ok, Res.ok.injEq] at hc
            have he := extension_units hr
            have hu : msg.units = e.data.length + extUnits e.extensions + 1 := by unfold Message.units; rw [← hc]
            have hp : (p.applyState msg).units ≤ p.units + extUnits e.extensions := by
              unfold Peer.applyState Peer.applyContent
              rw [← hc]
              simp only []
              repeat' split
              all_goals simp only [Peer.units]
              all_goals omega
            rw [hu]
            split <;> omega
          | err e => rw [hr] at hc; cases hc
          | panic => rw [hr] at hc; cases hc
          | hang => rw [hr] at hc; cases hc
        · split at hc
          · cases hr : (HandshakeMessage.fromBytes body : Res Bytes HandshakeMessage) with
            | ok r =>
              rw [hr] at hc
              simp only [Res.bind_ok, Res.ok.injEq] at hc
              rw [same _ hc.symm (by simp) (by simp)]
              cases d <;> simp [Downloadable.messageFilter, Message.isExtensionData, Message.isRequest, ← hc]
            | err e => rw [hr] at hc; cases hc
            | panic => rw [hr] at hc; cases hc
            | hang => rw [hr] at hc; cases hc
          · simp only [Res.ok.injEq] at hc
            rw [same _ hc.symm (by simp) (by simp)]
            cases d <;> simp [Downloadable.messageFilter, Message.isExtensionData, Message.isRequest, ← hc]


/-- A message that is kept takes no more than the bytes it was made of, and so does its content. -/
theorem kept_units {body : Bytes} {len : Nat} {id : UInt8} {msg : Message} (h : Message.newRaw body len id = .ok msg) (d : Downloadable)
    (hd : d.messageFilter msg = true) : msg.units ≤ body.length := by
  obtain ⟨-, -, hc⟩ := newRaw_id h
  have hs := contentOf_shape hc
  unfold Message.contentOf at hc
  have no : (∀ r, msg.content ≠ .request r) → (∀ e, msg.content ≠ .extension e) → False := by
    intro h1 h2
    cases d <;> simp only [Downloadable.messageFilter, Message.isExtensionData, Message.isRequest] at hd
    all_goals cases hm : msg.content <;> simp_all
  split at hc
  · simp only [Res.ok.injEq] at hc
    exact (no (by simp [← hc]) (by simp [← hc])).elim
  · split at hc
    · simp only [Res.ok.injEq] at hc
      exact (no (by simp [← hc]) (by simp [← hc])).elim
    · split at hc
      · cases hr : (RequestMessage.fromBytes body : Res Bytes RequestMessage) with
        | ok r =>
          rw [hr] at hc
          simp only [Res.bind_ok, Res.ok.injEq] at hc
          have hl : r.blockData.length + 8 ≤ body.length := by
            unfold RequestMessage.fromBytes slice sliceFrom at hr
            by_cases h8 : 8 ≤ body.length
            · have h4 : 4 ≤ body.length := by omega
              simp only [h8, h4, Nat.zero_le, true_and, if_true, Res.bind_ok, Res.ok.injEq, show (4 : Nat) ≤ 8 by omega] at hr
              subst hr
              simp only [List.length_drop]
              omega
            · by_cases h4 : 4 ≤ body.length <;> simp [h8, h4] at hr
          unfold Message.units
          rw [← hc]
          simp only []
          omega
        | err e => rw [hr] at hc; cases hc
        | panic => rw [hr] at hc; cases hc
        | hang => rw [hr] at hc; cases hc
      · split at hc
        · cases hr : ExtensionMessage.fromBytes body with
          | ok e =>
            rw [hr] at hc
            simp only [Res.bind_ok, Res.ok.injEq] at hc
            have := extension_units hr
            unfold Message.units
            rw [← hc]
            exact this
          | err e => rw [hr] at hc; cases hc
          | panic => rw [hr] at hc; cases hc
          | hang => rw [hr] at hc; cases hc
        · split at hc
          · cases hr : (HandshakeMessage.fromBytes body : Res Bytes HandshakeMessage) with
            | ok r =>
              rw [hr] at hc
              simp only [Res.bind_ok, Res.ok.injEq] at hc
              exact (no (by simp [← hc]) (by simp [← hc])).elim
            | err e => rw [hr] at hc; cases hc
            | panic => rw [hr] at hc; cases hc
            | hang => rw [hr] at hc; cases hc
          · simp only [Res.ok.injEq] at hc
            exact (no (by simp [← hc]) (by simp [← hc])).elim

theorem contentData_units (msg : Message) : msg.contentData.length ≤ msg.units := by
  unfold Message.contentData Message.units
  cases msg.content <;> simp only [List.length_nil] <;> omega

/-! ### The state of an attempt -/

/-- What is kept has been paid for with bytes taken off the connection; `kept` are the units of the messages. -/
def Paid (net : Net) (p : Peer) (kept : Nat) : Prop :=
  p.units + 2 * kept + 8 * p.conn.buf.length ≤ 8 * (arrivals net 0 p.conn.t).length ∧
    kept + p.conn.buf.length ≤ (arrivals net 0 p.conn.t).length

theorem Paid.conn {net : Net} {p : Peer} {kept : Nat} (h : Paid net p kept) (p' : Peer) (hu : p'.units = p.units)
    (ht : Takes net p.conn p'.conn 0) : Paid net p' kept := by
  unfold Paid Takes at *
  rw [hu]
  omega

theorem paid_new (net : Net) (hash id : Bytes) : Paid net (Peer.new ⟨[], 0⟩ hash id) 0 := by
  simp [Paid, Peer.new, Peer.units, extUnits]

theorem paid_send {net : Net} {p : Peer} {kept : Nat} (h : Paid net p kept) (msg : Message) : Paid net (p.sendMessage net msg) kept := by
  refine h.conn _ rfl ?_
  rw [sendMessage_conn, ← advance_eq_after]
  exact takes_advance net _

/-- Reading a message: what it adds is paid for. -/
theorem paid_message {net : Net} {p : Peer} {kept : Nat} (h : Paid net p kept) {body : Bytes} {id : UInt8} {len : Nat} {msg : Message} {c : Conn}
    (hc : c = (readStream net p.conn).2) (hr : (readStream net p.conn).1 = some (body, id, len)) (hn : Message.newRaw body len id = .ok msg)
    (d : Downloadable) :
    Paid net (({ p with conn := c } : Peer).applyMessage msg) (kept + if d.messageFilter msg then msg.units else 0) := by
  have ht := (takes_readStream net p.conn).2 body id len hr
  have hm := message_units hn { p with conn := c } d
  have hu : ({ p with conn := c } : Peer).units = p.units := rfl
  have hk := kept_units hn d
  rw [hu] at hm
  rw [← hc] at ht
  unfold Paid
  rw [applyMessage_conn]
  unfold Paid Takes at *
  split
  · rename_i hd
    rw [if_pos hd] at hm
    have := hk hd
    simp only []
    omega
  · rename_i hd
    rw [if_neg hd] at hm
    simp only []
    omega

theorem paid_readAndApply {net : Net} {p : Peer} (h : Paid net p 0) : Paid net (readAndApply net p).2 0 := by
  obtain ⟨c, r, hr, hc, hcase⟩ := readMessage_cases (ε := PeerManagerError) net p
  have ht : Takes net p.conn c 0 := by rw [hc]; exact (takes_readStream net p.conn).1
  unfold readAndApply
  rw [hr]
  rcases hcase with rfl | rfl | rfl | ⟨x, body, len, id, rfl, hb, hn⟩
  · exact h.conn _ rfl ht
  · exact h.conn _ rfl ht
  · exact h.conn _ rfl ht
  · have := paid_message h hc hb hn .info
    unfold Paid at this ⊢
    simp only [] at this ⊢
    omega

theorem paid_readyLoop {net : Net} : ∀ (k : Nat) {p : Peer}, Paid net p 0 → Paid net (readyLoop net k p).2 0
  | 0, _, h => h
  | k + 1, p, h => by
    unfold readyLoop
    have h1 := paid_readAndApply h
    cases hr : readAndApply net p with
    | mk a p' =>
      rw [hr] at h1
      cases a with
      | ok _ =>
        simp only []
        split
        · exact h1
        · exact paid_readyLoop k h1
      | err e => exact h1
      | panic => exact h1
      | hang => exact h1

theorem paid_initPeer {net : Net} {p : Peer} (h : Paid net p 0) : Paid net (initPeer net p).2 0 := by
  unfold initPeer
  have h1 := paid_readAndApply (paid_send h (newHandshake p.infoHash p.id))
  simp only []
  cases hr : readAndApply net (p.sendMessage net (newHandshake p.infoHash p.id)) with
  | mk a p' =>
    rw [hr] at h1
    cases a with
    | ok _ =>
      simp only []
      split
      · exact h1
      · have h2 := paid_send h1 newInterested
        have h3 : Paid net ((p'.sendMessage net newInterested).sendMetadataHandshakeRequest net).2 0 :=
          h2.conn _ rfl (takes_advance net _)
        cases hs : (p'.sendMessage net newInterested).sendMetadataHandshakeRequest net with
        | mk b p2 =>
          rw [hs] at h3
          cases b with
          | false => exact h3
          | true => exact paid_readyLoop 10 h3
    | err e => exact h1
    | panic => exact h1
    | hang => exact h1

/-- The units of the messages that are kept. -/
def keptUnits (b : MessageBuffer) : Nat := (b.buffer.map Message.units).sum

theorem keptUnits_push (b : MessageBuffer) (d : Downloadable) (msg : Message) :
    keptUnits (b.pushMessage d msg) ≤ keptUnits b + if d.messageFilter msg then msg.units else 0 := by
  unfold MessageBuffer.pushMessage keptUnits
  by_cases hd : d.messageFilter msg = true
  · by_cases hf : b.isFull = true
    · simp [hd, hf]
    · simp [hd, hf]
  · simp [hd]

theorem assemble_le (b : MessageBuffer) : b.assembleContent.length ≤ keptUnits b := by
  unfold MessageBuffer.assembleContent keptUnits
  induction b.buffer with
  | nil => simp
  | cons x t ih =>
    have := contentData_units x
    simp only [List.flatMap_cons, List.length_append, List.map_cons, List.sum_cons]
    omega

/-- A state or an end of the download that is paid for. -/
def FlowPaid (net : Net) : Flow → Prop
  | .again s => Paid net s.peer (keptUnits s.buf)
  | .done r p => Paid net p 0 ∧ ∀ b, r = .ok b → b.length ≤ (arrivals net 0 p.conn.t).length

theorem Paid.none {net : Net} {p : Peer} {k : Nat} (h : Paid net p k) : Paid net p 0 := by unfold Paid at *; omega

theorem paid_execTail {m : Build} {net : Net} {d : Downloadable} {s : DState} (h : Paid net s.peer (keptUnits s.buf)) :
    FlowPaid net (execTail m net d s) := by
  unfold execTail
  split
  · refine ⟨h.none, fun b hb => ?_⟩
    simp only [Res.ok.injEq] at hb
    subst hb
    have := assemble_le s.buf
    unfold Paid at h
    omega
  · split
    · exact ⟨h.none, fun b hb => by cases hb⟩
    · unfold MessageBuffer.requestNextMessage
      by_cases he : (s.buf.isLenAsExpected || s.buf.isFull) = true
      · simp only [he, if_true]
        split
        · exact ⟨h.none, fun b hb => by cases hb⟩
        · exact h
      · simp only [he]
        cases hr : (d.request m s.peer s.buf.buffer.length : Res DownloadableError Message) with
        | ok msg =>
          simp only [Bool.false_eq_true, if_false]
          split
          · exact ⟨(paid_send h msg).none, fun b hb => by cases hb⟩
          · exact paid_send h msg
        | err e => exact ⟨h.none, fun b hb => by cases hb⟩
        | panic => exact ⟨h.none, fun b hb => by cases hb⟩
        | hang => exact ⟨h.none, fun b hb => by cases hb⟩

theorem paid_execStep {m : Build} {net : Net} {d : Downloadable} {s : DState} (h : Paid net s.peer (keptUnits s.buf)) :
    FlowPaid net (execStep m net d s) := by
  obtain ⟨c, r, hr, hc, hcase⟩ := readMessage_cases (ε := DownloadableError) net s.peer
  have ht : Takes net s.peer.conn c 0 := by rw [hc]; exact (takes_readStream net s.peer.conn).1
  unfold execStep
  rw [hr]
  rcases hcase with rfl | rfl | rfl | ⟨x, body, len, id, rfl, hb, hn⟩
  · exact paid_execTail (h.conn _ rfl ht)
  · exact ⟨(h.conn { s.peer with conn := c } rfl ht).none, fun b hb => by cases hb⟩
  · exact ⟨(h.conn { s.peer with conn := c } rfl ht).none, fun b hb => by cases hb⟩
  · refine paid_execTail ?_
    have h1 := paid_message h hc hb hn d
    have h2 := keptUnits_push s.buf d x
    unfold Paid at h1 ⊢
    simp only [] at h1 ⊢
    omega

theorem paid_execRun {m : Build} {net : Net} {d : Downloadable} : ∀ (f : Nat) {s : DState}, Paid net s.peer (keptUnits s.buf) →
    FlowPaid net (execRun m net d f s)
  | 0, _, h => h
  | f + 1, s, h => by
    unfold execRun
    have h1 := paid_execStep (m := m) (d := d) h
    cases hs : execStep m net d s with
    | again s' => rw [hs] at h1; exact paid_execRun f h1
    | done r p => rw [hs] at h1; exact h1

/-! ### C91 -/

/-- C91, what is kept: in every state of an attempt with a peer, from the connection being made on, the client keeps no more than eight units
for every byte the peer has sent (eight because a bitfield is kept as one byte for each bit), and what a download returns is no
longer than what the peer has sent. Missing: the buffer reserved for a message is as large as the peer says (refuted below). -/
theorem C91_kept_partial (m : Build) (net : Net) (hash id : Bytes) (d : Downloadable) (capacity f : Nat) :
    let p0 := (initPeer net (Peer.new ⟨[], 0⟩ hash id)).2
    p0.units ≤ 8 * (arrivals net 0 p0.conn.t).length ∧
    (∀ s, execRun m net d f ⟨p0, ⟨[], capacity, 0⟩, 0⟩ = .again s → s.units ≤ 8 * (arrivals net 0 s.peer.conn.t).length) ∧
    (∀ r p, execRun m net d f ⟨p0, ⟨[], capacity, 0⟩, 0⟩ = .done r p → p.units ≤ 8 * (arrivals net 0 p.conn.t).length ∧
      ∀ b, r = .ok b → b.length ≤ (arrivals net 0 p.conn.t).length) := by
  intro p0
  have h0 : Paid net p0 0 := paid_initPeer (paid_new net hash id)
  have hrun := paid_execRun (m := m) (d := d) f (s := ⟨p0, ⟨[], capacity, 0⟩, 0⟩) h0
  refine ⟨?_, fun s hs => ?_, fun r p hs => ?_⟩
  · unfold Paid at h0; omega
  · rw [hs] at hrun
    have h1 : Paid net s.peer (keptUnits s.buf) := hrun
    unfold Paid keptUnits at h1
    unfold DState.units
    omega
  · rw [hs] at hrun
    obtain ⟨h1, h2⟩ := hrun
    refine ⟨?_, h2⟩
    unfold Paid at h1
    omega

theorem padTo4_length (net : Net) (c c' : Conn) (b4 : Bytes) (h : c.read net 4 = (some b4, c')) : (padTo 4 b4).length = 4 := by
  rcases read_cases net c 4 with e | e
  · rw [e] at h; cases h
  · rw [e] at h
    simp only [Prod.mk.injEq, Option.some.injEq] at h
    have : b4.length ≤ 4 := by rw [← h.1, List.length_take]; omega
    unfold padTo
    rw [List.length_append, List.length_replicate]
    omega

theorem framedBuffer_lt (net : Net) (c : Conn) : framedBuffer net c ≤ 2 ^ 32 - 2 := by
  unfold framedBuffer
  cases h : c.read net 4 with
  | mk a c1 =>
    cases a with
    | none => simp
    | some b4 =>
      simp only []
      cases c1.read net 1 with
      | mk a c2 =>
        cases a with
        | none => simp
        | some b1 =>
          simp only []
          have := ofBe_lt (padTo 4 b4)
          rw [padTo4_length net c c1 b4 h] at this
          omega

/-- C91, what is reserved: the buffer for a message never has more than 4294967294 bytes. -/
theorem C91_reserved (net : Net) (c : Conn) : readBuffer net c ≤ 4294967294 := by
  unfold readBuffer
  cases c.setReadTimeout net with
  | mk b c0 =>
    cases b with
    | false => simp
    | true =>
      simp only []
      cases hasMessages net c0 with
      | mk b c1 =>
        cases b with
        | false => simp
        | true =>
          simp only []
          cases c1.peek net 68 with
          | mk a c2 =>
            cases a with
            | none => exact framedBuffer_lt net c2
            | some p =>
              simp only []
              split
              · omega
              · exact framedBuffer_lt net c2

/-- C91: when a message does come the buffer made for it was exactly as long as its body (68 bytes for a handshake). -/
theorem C91_buffer_exact (net : Net) (c : Conn) (body : Bytes) (id : UInt8) (len : Nat) (h : (readStream net c).1 = some (body, id, len)) :
    readBuffer net c = body.length := by
  have framed : ∀ c2 : Conn, (readFramed net c2).1 = some (body, id, len) → framedBuffer net c2 = body.length := by
    intro c2 h
    unfold readFramed at h
    unfold framedBuffer
    split at h
    · cases h
    · rename_i b4 c3 h4
      simp only [] at h ⊢
      split at h
      · cases h
      · rename_i b1 c4 h1
        rw [h4]; simp only []; rw [h1]
        simp only []
        split at h
        · rename_i h0
          cases h
          rw [h0]; rfl
        · split at h
          · rename_i bd c5 hb
            have hl := (takes_bodyLoop net 39 c4 (ofBe (padTo 4 b4) - 1)).2 bd (by rw [hb])
            cases h
            exact hl.1.symm
          · cases h
  unfold readStream at h
  unfold readBuffer
  split at h
  · cases h
  · rename_i c0 h0
    rw [h0]
    simp only []
    split at h
    · cases h
    · rename_i c1 h1
      rw [h1]
      simp only []
      split at h
      · rename_i p c2 h2
        rw [h2]
        simp only []
        split at h
        · rename_i h68
          rw [if_pos h68]
          split at h
          · cases h
          · rename_i bs c3 h3
            cases h
            have hbs : bs.length = 68 := by
              have hpc := peek_cases net c1 68
              have hrc := read_cases net c2 68
              rw [h2] at hpc
              rw [h3] at hrc
              rcases hpc with hpc | hpc
              · cases hpc
              · rcases hrc with hrc | hrc
                · cases hrc
                · simp only [Prod.mk.injEq, Option.some.injEq] at hpc hrc
                  have hp68 := h68.1
                  rw [hpc.1, ← hpc.2, List.length_take] at hp68
                  rw [hrc.1, List.length_take, Conn.after, List.length_append]
                  omega
            rw [padTo_of_length hbs, hbs]
        · rw [if_neg (by assumption)]
          exact framed _ h
      · rename_i c2 h2
        rw [h2]
        exact framed _ h

/-- C91 fails: five bytes make the client reserve any number of bytes up to 4294967294, for a message that never comes. -/
theorem C91_refuted (n : Nat) (hn : n ≤ 4294967294) (h0 : 0 < n) (id : UInt8) :
    ∃ bytes : Bytes, bytes.length = 5 ∧ readBuffer (fun _ => ⟨[], .up⟩) ⟨bytes, 0⟩ = n ∧
      (readStream (fun _ => ⟨[], .up⟩) ⟨bytes, 0⟩).1 = none := by
  have hu := u32_isU32 (n + 1) (by omega)
  have hv : ofBe (u32 (n + 1)) = n + 1 := by rw [ofBe_eq_beValue]; exact hu.2
  obtain ⟨w, x, y, z, e⟩ : ∃ w x y z, u32 (n + 1) = [w, x, y, z] := ⟨_, _, _, _, rfl⟩
  rw [e] at hv
  have hloop : ∀ k t, bodyLoop (fun _ => ⟨[], .up⟩) k ⟨[], t⟩ n = (none, ⟨[], t + k⟩) := by
    intro k
    induction k with
    | zero => intro t; rfl
    | succ k ih =>
      intro t
      unfold bodyLoop peekAndRead
      have : ¬ (0 = n) := by omega
      simp only [Conn.peek, Conn.advance, List.append_nil, if_true, countOr0, this, if_false]
      rw [ih]
      simp only [Prod.mk.injEq, Conn.mk.injEq, true_and]
      omega
  refine ⟨[w, x, y, z, id], rfl, ?_, ?_⟩
  · simp [readBuffer, framedBuffer, Conn.setReadTimeout, Conn.advance, hasMessages, Conn.peek, Conn.read, padTo, hv]
  · simp [readStream, readFramed, Conn.setReadTimeout, Conn.advance, hasMessages, Conn.peek, Conn.read, padTo, hv, hloop]

/-- What is kept is not bounded by what was asked for: asked for one block of 16384 bytes, the peer sends any number of bytes (up to
301989887) and the client takes them for the block. -/
theorem C91_refuted_block (m : Build) (net : Net) (s : DState) (data rest : Bytes) (hd : data.length < 0x12000000)
    (hs : s.buf = ⟨[], 1, 1⟩) (hb : s.peer.conn.buf = wire (7, List.replicate 8 0 ++ data) ++ rest) (hf : NoFailure net s.peer.conn.t 7) :
    ∃ p, execStep m net (.block 16384 0 16384) s = .done (.ok data) p := by
  obtain ⟨hfr, h13⟩ := wire_frame (x := (7, List.replicate 8 0 ++ data)) (by simp; omega)
  have hr := C28_message_partial net s.peer.conn 7 _ _ rest hfr h13 hb hf
  unfold execStep Peer.readMessage
  rw [hr]
  have hn : Message.newRaw (List.replicate 8 0 ++ data) (List.replicate 8 0 ++ data).length 7 =
      .ok ⟨7, (List.replicate 8 0 ++ data).length, .request ⟨0, 0, data⟩⟩ := by
    simp only [Message.newRaw, Message.contentOf, RequestMessage.fromBytes, slice, sliceFrom]
    simp [show List.replicate 8 (0 : UInt8) = [0, 0, 0, 0, 0, 0, 0, 0] from rfl, ofBe]
  simp only [hn]
  unfold execTail
  have hfull : (s.buf.pushMessage (.block 16384 0 16384) ⟨7, (List.replicate 8 0 ++ data).length, .request ⟨0, 0, data⟩⟩) =
      ⟨[⟨7, (List.replicate 8 0 ++ data).length, .request ⟨0, 0, data⟩⟩], 1, 1⟩ := by rw [hs]; rfl
  rw [hfull]
  simp only [MessageBuffer.isFull, List.length_singleton, beq_self_eq_true, if_true, MessageBuffer.assembleContent, List.flatMap_cons,
    List.flatMap_nil, List.append_nil, Message.contentData]
  exact ⟨_, rfl⟩

/-- The request in that state was for 16384 bytes. -/
example (m : Build) : blockRequest (ε := DownloadableError) m 16384 0 16384 0 = .ok (newRequest 0 0 16384) ∧
    (Downloadable.block 16384 0 16384).capacity (ε := DownloadableError) m (Peer.new ⟨[], 0⟩ [] []) = .ok 1 := by
  cases m <;> exact ⟨by decide +kernel, by decide +kernel⟩

/-- The tail of an iteration keeps what there is. -/
theorem execTail_units {m : Build} {net : Net} {d : Downloadable} {s t : DState} (h : execTail m net d s = .again t) : t.units = s.units := by
  unfold execTail at h
  split at h
  · cases h
  split at h
  · cases h
  split at h
  · rename_i b p hq
    split at h
    · cases h
    cases h
    unfold MessageBuffer.requestNextMessage at hq
    split at hq
    · cases hq
      rfl
    split at hq
    · cases hq
      rfl
    all_goals cases hq
  all_goals cases h

/-- Blocks are kept until the last has come: each adds its bytes, and those of the copy that is made in the end. -/
theorem C91_block_kept {m : Build} {net : Net} {s t : DState} {x y z : Nat} {data rest : Bytes} (hd : data.length < 0x12000000) (hroom : s.buf.isFull = false)
    (hb : s.peer.conn.buf = wire (7, List.replicate 8 0 ++ data) ++ rest) (hf : NoFailure net s.peer.conn.t 7) (h : execStep m net (.block x y z) s = .again t) :
    t.units = s.units + 2 * (data.length + 1) := by
  obtain ⟨hfr, h13⟩ := wire_frame (x := (7, List.replicate 8 0 ++ data)) (by simp; omega)
  have hr := C28_message_partial net s.peer.conn 7 _ _ rest hfr h13 hb hf
  unfold execStep Peer.readMessage at h
  rw [hr] at h
  have hn : Message.newRaw (List.replicate 8 0 ++ data) (List.replicate 8 0 ++ data).length 7 =
      .ok ⟨7, (List.replicate 8 0 ++ data).length, .request ⟨0, 0, data⟩⟩ := by
    simp only [Message.newRaw, Message.contentOf, RequestMessage.fromBytes, slice, sliceFrom]
    simp [show List.replicate 8 (0 : UInt8) = [0, 0, 0, 0, 0, 0, 0, 0] from rfl, ofBe]
  simp only [hn] at h
  rw [execTail_units h]
  have hpush : s.buf.pushMessage (.block x y z) ⟨7, (List.replicate 8 0 ++ data).length, .request ⟨0, 0, data⟩⟩ =
      { s.buf with buffer := s.buf.buffer ++ [⟨7, (List.replicate 8 0 ++ data).length, .request ⟨0, 0, data⟩⟩] } := by
    unfold MessageBuffer.pushMessage
    rw [hroom]
    rfl
  rw [hpush]
  show s.peer.units + 2 * (List.map Message.units (s.buf.buffer ++ [_])).sum = s.peer.units + 2 * (List.map Message.units s.buf.buffer).sum + 2 * (data.length + 1)
  simp [Message.units]
  omega

/-- Non-vacuity: the first of two blocks comes, and is kept. -/
example : (match execStep .debug (fun _ => ⟨[], .up⟩) (.block 32768 0 32768)
      ⟨{ Peer.new ⟨wire (7, List.replicate 8 0 ++ [1, 2, 3]), 0⟩ [] [] with choked := false }, ⟨[], 2, 1⟩, 0⟩ with
    | .again t => some t.units
    | .done _ _ => none) = some 8 := by
  decide +kernel

/-- The factor eight is needed: a bitfield of `n` bytes is kept as `8 * n` bytes. -/
theorem C91_attained (net : Net) (p : Peer) (body rest : Bytes) (hl : body.length + 1 < 0x13000000)
    (hb : p.conn.buf = wire (5, body) ++ rest) (hf : NoFailure net p.conn.t 7) :
    (readAndApply net p).1 = .ok () ∧ (readAndApply net p).2.units = 8 * body.length + extUnits p.extensions := by
  obtain ⟨hfr, h13⟩ := wire_frame (x := (5, body)) hl
  have hr := C28_message_partial net p.conn 5 body _ rest hfr h13 hb hf
  have hn : Message.newRaw body body.length 5 = .ok ⟨5, body.length, .bitfield body⟩ := rfl
  have hbits : (bitVector body).length = 8 * body.length := by
    unfold bitVector
    rw [List.length_flatMap]
    have : (fun b => (byteBits b).length) = fun _ => 8 := by funext b; rfl
    rw [this]
    clear hl hb hf hfr h13 hr hn this
    induction body with
    | nil => rfl
    | cons b t ih => simp only [List.map_cons, List.sum_cons, ih, List.length_cons]; omega
  unfold readAndApply Peer.readMessage
  rw [hr]
  simp only [hn]
  refine ⟨trivial, ?_⟩
  show (bitVector body).length + extUnits p.extensions = _
  rw [hbits]

/-- Non-vacuity: an attempt with a peer that sends a handshake and a bitfield of three bytes. -/
def payingPeer : Net := fun t =>
  if t = 0 then ⟨newHandshake (List.replicate 20 7) (List.replicate 20 1) |>.asBytes, .up⟩
  else if t = 8 then ⟨wire (5, [255, 0, 129]), .up⟩
  else ⟨[], .up⟩

example : ((initPeer payingPeer (Peer.new ⟨[], 0⟩ (List.replicate 20 7) (List.replicate 20 2))).2.units,
    (arrivals payingPeer 0 (initPeer payingPeer (Peer.new ⟨[], 0⟩ (List.replicate 20 7) (List.replicate 20 2))).2.conn.t).length) =
    (24, 76) := by decide +kernel

/-- The measures in concrete cases: the buffer of a handshake has 68 bytes, a bitfield message takes a unit for each byte (and a unit for each bit
once it is applied), and so does the name of an extension. -/
example : readBuffer (fun _ => ⟨[], .up⟩) ⟨sampleHandshake (List.replicate 20 7), 0⟩ = 68 ∧
    (⟨5, 3, .bitfield [1, 2]⟩ : Message).units = 3 ∧ extUnits [(b!"ut_pex", 2), (b!"x", 1)] = 9 ∧
    (⟨20, 3, .extension ⟨0, none, none, [(b!"x", 1)], none, [1, 2]⟩⟩ : Message).units = 5 ∧
    (⟨7, 9, .request ⟨0, 0, [1, 2, 3]⟩⟩ : Message).units = 4 ∧ (newHandshake (List.replicate 20 7) (List.replicate 20 1)).units = 68 := by
  decide +kernel

end RustBit
