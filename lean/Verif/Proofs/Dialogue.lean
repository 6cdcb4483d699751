/-
The functions of src/peer are programs at a socket.
-/
import Verif.Spec.Dialogue

namespace RustBit
open Spec

/-- One program after the other. -/
def Dialogue.andThen {α β : Type} : Dialogue α → (α → Dialogue β) → Dialogue β
  | .over a, k => k a
  | .call says next, k => .call says fun e => Dialogue.andThen (next e) k

theorem Dialogue.run_andThen {α β : Type} (net : Net) (k : α → Dialogue β) : ∀ (T : Dialogue α) (t : Nat) (w : List Bytes),
    (Dialogue.andThen T k).run net t w = (k (T.run net t w).1).run net (T.run net t w).2.1 (T.run net t w).2.2
  | .over _, _, _ => rfl
  | .call says next, t, w => by
    simp only [Dialogue.andThen, Spec.Dialogue.run]
    exact run_andThen net k (next (net t)) (t + 1) (w ++ says.toList)

/-- `F` is a program that begins with call `t` and with `w` written; `pr` tells the number of calls and what is written from what comes out. -/
def Played {α : Type} (t : Nat) (w : List Bytes) (F : Net → α) (pr : α → Nat × List Bytes) : Prop :=
  ∃ T : Dialogue α, ∀ net, T.run net t w = (F net, pr (F net))

theorem Played.const {α : Type} {t : Nat} {w : List Bytes} {pr : α → Nat × List Bytes} (a : α) (h : pr a = (t, w)) : Played t w (fun _ => a) pr :=
  ⟨.over a, fun _ => by simp only [Spec.Dialogue.run, h]⟩

theorem Played.bind {α β : Type} {t : Nat} {w : List Bytes} {F : Net → α} {pr : α → Nat × List Bytes} {qr : β → Nat × List Bytes} (G : α → Net → β)
    (hF : Played t w F pr) (hG : ∀ a, Played (pr a).1 (pr a).2 (G a) qr) : Played t w (fun net => G (F net) net) qr := by
  obtain ⟨T, hT⟩ := hF
  refine ⟨Dialogue.andThen T fun a => (hG a).choose, fun net => ?_⟩
  rw [Dialogue.run_andThen, hT]
  exact (hG (F net)).choose_spec net

theorem Played.call {α : Type} {t : Nat} {w : List Bytes} {pr : α → Nat × List Bytes} (says : Option Bytes) (G : NetEv → Net → α)
    (hG : ∀ e, Played (t + 1) (w ++ says.toList) (G e) pr) : Played t w (fun net => G (net t) net) pr :=
  ⟨.call says fun e => (hG e).choose, fun net => by
    simp only [Spec.Dialogue.run]; exact (hG (net t)).choose_spec net⟩

theorem Played.map {α β : Type} {t : Nat} {w : List Bytes} {F : Net → α} {pr : α → Nat × List Bytes} {qr : β → Nat × List Bytes} (g : α → β)
    (hF : Played t w F pr) (hg : ∀ a, qr (g a) = pr a) : Played t w (fun net => g (F net)) qr :=
  Played.bind (fun a _ => g a) hF fun a => Played.const (g a) (hg a)

/-- On a connection nothing is written but in `write`. -/
abbrev onConn {ρ : Type} (w : List Bytes) (x : ρ × Conn) : Nat × List Bytes := (x.2.t, w)

abbrev onPeer {ρ : Type} (x : ρ × Peer) : Nat × List Bytes := (x.2.conn.t, written x.2.log)

/-- A look at the socket. -/
theorem played_peek (w : List Bytes) (c : Conn) (n : Nat) : Played c.t w (fun net => c.peek net n) (onConn w) := by
  refine Played.call (α := Option Bytes × Conn) none (fun e _ =>
    match e.kind with
    | .fail => (none, ⟨c.buf ++ e.arrive, c.t + 1⟩)
    | .up => if c.buf ++ e.arrive = [] then (none, ⟨c.buf ++ e.arrive, c.t + 1⟩) else (some ((c.buf ++ e.arrive).take n), ⟨c.buf ++ e.arrive, c.t + 1⟩)
    | .eof => (some ((c.buf ++ e.arrive).take n), ⟨c.buf ++ e.arrive, c.t + 1⟩)) fun e => Played.const _ ?_
  rcases e with ⟨a, k⟩
  cases k <;> simp only [onConn, Option.toList, List.append_nil]
  split <;> rfl

theorem played_read (w : List Bytes) (c : Conn) (n : Nat) : Played c.t w (fun net => c.read net n) (onConn w) := by
  refine Played.map (β := Option Bytes × Conn) (fun x : Option Bytes × Conn => match x with
    | (none, c') => (none, c')
    | (some bs, c') => (some bs, { c' with buf := c'.buf.drop n })) (played_peek w c n) ?_
  rintro ⟨_ | _, _⟩ <;> rfl

theorem played_timeout (w : List Bytes) (c : Conn) : Played c.t w (fun net => c.setReadTimeout net) (onConn w) :=
  Played.call (α := Bool × Conn) none (fun e _ => (decide (e.kind ≠ .fail), (⟨c.buf ++ e.arrive, c.t + 1⟩ : Conn))) fun _ => Played.const _ (by simp [onConn])

theorem played_hasMessages (w : List Bytes) (c : Conn) : Played c.t w (fun net => hasMessages net c) (onConn w) := by
  refine Played.map (β := Bool × Conn) (fun x : Option Bytes × Conn => match x with
    | (some bs, c') => (decide (bs.length ≠ 0), c')
    | (none, c') => (false, c')) (played_peek w c 1) ?_
  rintro ⟨_ | _, _⟩ <;> rfl

theorem played_peekAndRead (w : List Bytes) (c : Conn) (n : Nat) : Played c.t w (fun net => peekAndRead net c n) (onConn w) := by
  refine Played.bind (β := Option Bytes × Conn) (fun (x : Option Bytes × Conn) net => match x with
    | (r1, c1) =>
      if countOr0 r1 = n then
        match c1.read net n with
        | (r2, c2) => if countOr0 r2 = n then (some (r2.getD []), c2) else (none, c2)
      else (none, c1)) (played_peek w c n) ?_
  rintro ⟨r1, c1⟩
  by_cases h : countOr0 r1 = n
  · simp only [h, if_true]
    refine Played.map (β := Option Bytes × Conn) (fun x : Option Bytes × Conn => match x with
        | (r2, c2) => if countOr0 r2 = n then (some (r2.getD []), c2) else (none, c2)) (played_read w c1 n) ?_
    rintro ⟨r2, c2⟩
    simp only []
    split <;> rfl
  · simp only [h, if_false]; exact Played.const _ rfl

theorem played_bodyLoop (w : List Bytes) (n : Nat) : ∀ (k : Nat) (c : Conn), Played c.t w (fun net => bodyLoop net k c n) (onConn w)
  | 0, _ => Played.const _ rfl
  | k + 1, c => by
    refine Played.bind (β := Option Bytes × Conn) (fun (x : Option Bytes × Conn) net => match x with
      | (some body, c') => (some body, c')
      | (none, c') => bodyLoop net k c' n) (played_peekAndRead w c n) ?_
    rintro ⟨_ | b, c'⟩
    · exact played_bodyLoop w n k c'
    · exact Played.const _ rfl

theorem played_readFramed (w : List Bytes) (c : Conn) : Played c.t w (fun net => readFramed net c) (onConn w) := by
  unfold readFramed
  refine Played.bind (β := Option (Bytes × UInt8 × Nat) × Conn) (fun (x : Option Bytes × Conn) net => match x with
    | (none, c1) => (none, c1)
    | (some b4, c1) => match c1.read net 1 with
      | (none, c2) => (none, c2)
      | (some b1, c2) =>
        if ofBe (padTo 4 b4) = 0 then (some ([], (padTo 1 b1).headD 0, 0), c2)
        else match bodyLoop net 39 c2 (ofBe (padTo 4 b4) - 1) with
          | (some body, c3) => (some (body, (padTo 1 b1).headD 0, ofBe (padTo 4 b4) - 1), c3)
          | (none, c3) => (none, c3)) (played_read w c 4) ?_
  rintro ⟨_ | b4, c1⟩
  · exact Played.const _ rfl
  refine Played.bind (β := Option (Bytes × UInt8 × Nat) × Conn) (fun (x : Option Bytes × Conn) net => match x with
      | (none, c2) => (none, c2)
      | (some b1, c2) =>
        if ofBe (padTo 4 b4) = 0 then (some ([], (padTo 1 b1).headD 0, 0), c2)
        else match bodyLoop net 39 c2 (ofBe (padTo 4 b4) - 1) with
          | (some body, c3) => (some (body, (padTo 1 b1).headD 0, ofBe (padTo 4 b4) - 1), c3)
          | (none, c3) => (none, c3)) (played_read w c1 1) ?_
  rintro ⟨_ | b1, c2⟩
  · exact Played.const _ rfl
  by_cases h : ofBe (padTo 4 b4) = 0
  · simp only [h, if_true]; exact Played.const _ rfl
  · simp only [h, if_false]
    refine Played.map (β := Option (Bytes × UInt8 × Nat) × Conn) (fun x : Option Bytes × Conn => match x with
          | (some body, c3) => (some (body, (padTo 1 b1).headD 0, ofBe (padTo 4 b4) - 1), c3)
          | (none, c3) => (none, c3)) (played_bodyLoop w _ 39 c2) ?_
    rintro ⟨_ | _, _⟩ <;> rfl

theorem played_readStream (w : List Bytes) (c : Conn) : Played c.t w (fun net => readStream net c) (onConn w) := by
  refine Played.bind (β := Option (Bytes × UInt8 × Nat) × Conn) (fun (x : Bool × Conn) net => match x with
    | (false, c0) => (none, c0)
    | (true, c0) =>
      match hasMessages net c0 with
      | (false, c1) => (none, c1)
      | (true, c1) =>
        match c1.peek net 68 with
        | (some p, c2) =>
          if p.length = 68 ∧ p.head? = some 0x13 then
            match c2.read net 68 with
            | (none, c3) => (none, c3)
            | (some bs, c3) => (some (padTo 68 bs, 19, 68), c3)
          else readFramed net c2
        | (none, c2) => readFramed net c2) (played_timeout w c) ?_
  rintro ⟨_ | _, c0⟩
  · exact Played.const _ rfl
  refine Played.bind (β := Option (Bytes × UInt8 × Nat) × Conn) (fun (x : Bool × Conn) net => match x with
      | (false, c1) => (none, c1)
      | (true, c1) =>
        match c1.peek net 68 with
        | (some p, c2) =>
          if p.length = 68 ∧ p.head? = some 0x13 then
            match c2.read net 68 with
            | (none, c3) => (none, c3)
            | (some bs, c3) => (some (padTo 68 bs, 19, 68), c3)
          else readFramed net c2
        | (none, c2) => readFramed net c2) (played_hasMessages w c0) ?_
  rintro ⟨_ | _, c1⟩
  · exact Played.const _ rfl
  refine Played.bind (β := Option (Bytes × UInt8 × Nat) × Conn) (fun (x : Option Bytes × Conn) net => match x with
        | (some p, c2) =>
          if p.length = 68 ∧ p.head? = some 0x13 then
            match c2.read net 68 with
            | (none, c3) => (none, c3)
            | (some bs, c3) => (some (padTo 68 bs, 19, 68), c3)
          else readFramed net c2
        | (none, c2) => readFramed net c2) (played_peek w c1 68) ?_
  rintro ⟨_ | p, c2⟩
  · exact played_readFramed w c2
  by_cases h : p.length = 68 ∧ p.head? = some 0x13
  · simp only [h, and_self, if_true]
    refine Played.map (β := Option (Bytes × UInt8 × Nat) × Conn) (fun x : Option Bytes × Conn => match x with
            | (none, c3) => (none, c3)
            | (some bs, c3) => (some (padTo 68 bs, 19, 68), c3)) (played_read w c2 68) ?_
    rintro ⟨_ | _, _⟩ <;> rfl
  · simp only [h, if_false]; exact played_readFramed w c2

/-! ### On a peer -/

/-- `F` begins with the peer `p`. -/
abbrev From {α : Type} (p : Peer) (F : Net → α) (pr : α → Nat × List Bytes) : Prop := Played p.conn.t (written p.log) F pr

theorem from_readMessage {ε : Type} (p : Peer) : From p (fun net => p.readMessage (ε := ε) net) onPeer := by
  refine Played.map (β := Res ε (Option Message) × Peer) (fun x : Option (Bytes × UInt8 × Nat) × Conn => match x with
    | (none, c) => (.ok none, { p with conn := c })
    | (some (body, id, length), c) =>
      match Message.newRaw body length id with
      | .ok m => (.ok (some m), { p with conn := c })
      | .err _ => (.ok none, { p with conn := c })
      | .panic => (.panic, { p with conn := c })
      | .hang => (.hang, { p with conn := c })) (played_readStream (written p.log) p.conn) ?_
  rintro ⟨_ | ⟨body, id, length⟩, c⟩
  · rfl
  · simp only []
    split <;> rfl

theorem wrote_sent (l : List Ev) (b : Bytes) : written (l ++ [.sent b]) = written l ++ [b] := by simp [written]
theorem wrote_got (l : List Ev) (m : Message) : written (l ++ [.got m]) = written l := by simp [written]

theorem from_write (p : Peer) (b : Bytes) : From p (fun net => p.write net b) onPeer :=
  Played.call (α := Bool × Peer) (some b) (fun e _ =>
    (decide (e.kind ≠ .fail), { p with conn := (⟨p.conn.buf ++ e.arrive, p.conn.t + 1⟩ : Conn), log := p.log ++ [.sent b] })) fun _ =>
      Played.const _ (by simp only [onPeer, wrote_sent, Option.toList])

theorem from_sendMessage (p : Peer) (m : Message) : From p (fun net => p.sendMessage net m) (fun q => (q.conn.t, written q.log)) :=
  Played.map (β := Peer) (fun x : Bool × Peer => x.2) (from_write p m.asBytes) fun _ => rfl

theorem applyState_conn_same (p : Peer) (m : Message) : (p.applyState m).conn = p.conn := by
  simp only [Peer.applyState, Peer.applyContent]
  repeat' split
  all_goals rfl

theorem onPeer_apply (p : Peer) (m : Message) : ((p.applyMessage m).conn.t, written (p.applyMessage m).log) = (p.conn.t, written p.log) := by
  simp only [Peer.applyMessage, applyState_conn_same, wrote_got]

theorem from_requestNext {ε : Type} (m : Build) (b : MessageBuffer) (d : Downloadable) (p : Peer) :
    From p (fun net => b.requestNextMessage (ε := ε) m net d p) onPeer := by
  unfold MessageBuffer.requestNextMessage
  split
  · exact Played.const _ rfl
  · split
    · exact Played.map (β := Res ε MessageBuffer × Peer) (fun q : Peer => (Res.ok { b with expectedSize := b.expectedSize + 1 }, q)) (from_sendMessage p _) fun _ => rfl
    all_goals exact Played.const _ rfl

/-- What a round of the loop leaves. -/
def Flow.leaves : Flow → Peer
  | .again s => s.peer
  | .done _ p => p

abbrev onFlow (x : Flow) : Nat × List Bytes := (x.leaves.conn.t, written x.leaves.log)

theorem from_execTail (m : Build) (d : Downloadable) (s : DState) : From s.peer (fun net => execTail m net d s) onFlow := by
  unfold execTail
  split
  · exact Played.const _ rfl
  split
  · exact Played.const _ rfl
  refine Played.map (β := Flow) (fun x : Res DownloadableError MessageBuffer × Peer => match x with
    | (.ok b, p) => if s.idle + 1 > 10 then Flow.done (.err .idle) p else .again ⟨p, b, s.idle + 1⟩
    | (.err e, p) => .done (.err e) p
    | (.panic, p) => .done .panic p
    | (.hang, p) => .done .hang p) (from_requestNext m s.buf d s.peer) ?_
  rintro ⟨_ | _ | _ | _, p⟩
  · simp only []
    split <;> rfl
  all_goals rfl

theorem from_execStep (m : Build) (d : Downloadable) (s : DState) : From s.peer (fun net => execStep m net d s) onFlow := by
  refine Played.bind (β := Flow) (fun (x : Res DownloadableError (Option Message) × Peer) net => match x with
    | (.ok (some msg), p) => execTail m net d ⟨p.applyMessage msg, s.buf.pushMessage d msg, 0⟩
    | (.ok none, p) => execTail m net d { s with peer := p }
    | (.err e, p) => .done (.err e) p
    | (.panic, p) => .done .panic p
    | (.hang, p) => .done .hang p) (from_readMessage s.peer) ?_
  rintro ⟨(_ | msg) | _ | _ | _, p⟩
  · exact from_execTail m d { s with peer := p }
  · have h := from_execTail m d ⟨p.applyMessage msg, s.buf.pushMessage d msg, 0⟩
    have e := onPeer_apply p msg
    simp only [Prod.mk.injEq] at e
    simp only [From, e.1, e.2] at h
    exact h
  all_goals exact Played.const _ rfl

theorem from_execRun (m : Build) (d : Downloadable) : ∀ (f : Nat) (s : DState), From s.peer (fun net => execRun m net d f s) onFlow
  | 0, _ => Played.const _ rfl
  | f + 1, s => by
    refine Played.bind (β := Flow) (fun (x : Flow) net => match x with
      | .again s' => execRun m net d f s'
      | .done r p => .done r p) (from_execStep m d s) ?_
    rintro (s' | ⟨r, p⟩)
    · exact from_execRun m d f s'
    · exact Played.const _ rfl

theorem from_execute (m : Build) (d : Downloadable) (f : Nat) (p : Peer) (cap : Nat) : From p (fun net => execute m net d f p cap) onPeer := by
  refine Played.map (β := Res DownloadableError Bytes × Peer) (fun x : Flow => match x with
    | .again s => (.hang, s.peer)
    | .done r p => (r, p)) (from_execRun m d f ⟨p, ⟨[], cap, 0⟩, 0⟩) ?_
  rintro (_ | _) <;> rfl

theorem from_download (m : Build) (d : Downloadable) (f : Nat) (p : Peer) : From p (fun net => d.download m net f p) onPeer := by
  unfold Downloadable.download
  split
  · exact from_execute m d f p _
  all_goals exact Played.const _ rfl

theorem from_readAndApply (p : Peer) : From p (fun net => readAndApply net p) onPeer := by
  refine Played.map (β := Res PeerManagerError Unit × Peer) (fun x : Res PeerManagerError (Option Message) × Peer => match x with
    | (.ok (some msg), p) => (.ok (), p.applyMessage msg)
    | (.ok none, p) => (.ok (), p)
    | (.err e, p) => (.err e, p)
    | (.panic, p) => (.panic, p)
    | (.hang, p) => (.hang, p)) (from_readMessage p) ?_
  rintro ⟨(_ | msg) | _ | _ | _, p⟩
  · rfl
  · exact onPeer_apply p msg
  all_goals rfl

theorem from_readyLoop : ∀ (k : Nat) (p : Peer), From p (fun net => readyLoop net k p) onPeer
  | 0, _ => Played.const _ rfl
  | k + 1, p => by
    refine Played.bind (β := Res PeerManagerError Unit × Peer) (fun (x : Res PeerManagerError Unit × Peer) net => match x with
      | (.ok (), p) => if p.isReady then (.ok (), p) else readyLoop net k p
      | (.err e, p) => (.err e, p)
      | (.panic, p) => (.panic, p)
      | (.hang, p) => (.hang, p)) (from_readAndApply p) ?_
    rintro ⟨_ | _ | _ | _, p⟩
    · by_cases h : p.isReady
      · simp only [h, if_true]; exact Played.const _ rfl
      · simp only [h, Bool.false_eq_true, if_false]; exact from_readyLoop k p
    all_goals exact Played.const _ rfl

theorem from_initPeer (p : Peer) : From p (fun net => initPeer net p) onPeer := by
  refine Played.bind (β := Res PeerManagerError Unit × Peer) (fun (p : Peer) net => match readAndApply net p with
    | (.ok (), p) =>
      if !p.active then (.err .handshake, p)
      else
        match (p.sendMessage net newInterested).sendMetadataHandshakeRequest net with
        | (false, p) => (.err .handshakeMetadata, p)
        | (true, p) => readyLoop net 10 p
    | (.err e, p) => (.err e, p)
    | (.panic, p) => (.panic, p)
    | (.hang, p) => (.hang, p)) (from_sendMessage p (newHandshake p.infoHash p.id)) ?_
  intro p
  refine Played.bind (β := Res PeerManagerError Unit × Peer) (fun (x : Res PeerManagerError Unit × Peer) net => match x with
    | (.ok (), p) =>
      if !p.active then (.err .handshake, p)
      else
        match (p.sendMessage net newInterested).sendMetadataHandshakeRequest net with
        | (false, p) => (.err .handshakeMetadata, p)
        | (true, p) => readyLoop net 10 p
    | (.err e, p) => (.err e, p)
    | (.panic, p) => (.panic, p)
    | (.hang, p) => (.hang, p)) (from_readAndApply p) ?_
  rintro ⟨_ | _ | _ | _, p⟩
  · by_cases h : p.active
    · simp only [h, Bool.not_true, Bool.false_eq_true, if_false]
      refine Played.bind (β := Res PeerManagerError Unit × Peer) (fun (p : Peer) net => match p.sendMetadataHandshakeRequest net with
        | (false, p) => (.err .handshakeMetadata, p)
        | (true, p) => readyLoop net 10 p) (from_sendMessage p newInterested) ?_
      intro p
      refine Played.bind (β := Res PeerManagerError Unit × Peer) (fun (x : Bool × Peer) net => match x with
        | (false, p) => (.err .handshakeMetadata, p)
        | (true, p) => readyLoop net 10 p) (from_write p extensionHandshakeBytes) ?_
      rintro ⟨_ | _, p⟩
      · exact Played.const _ rfl
      · exact from_readyLoop 10 p
    · simp only [h, Bool.not_false, if_true]; exact Played.const _ rfl
  all_goals exact Played.const _ rfl

theorem played_getInfo (m : Build) (f : Nat) (peerId infoHash : Bytes) : Played 0 [] (fun net => getInfoRun m net f peerId infoHash) onPeer := by
  refine Played.bind (β := Res PeerManagerError Info × Peer) (fun (x : Res PeerManagerError Unit × Peer) net => match x with
    | (.ok (), p) =>
      match Downloadable.info.download m net f p with
      | (.ok b, p) => ((Info.fromBytes b).mapErr .info, p)
      | (.err e, p) => (.err (.download e), p)
      | (.panic, p) => (.panic, p)
      | (.hang, p) => (.hang, p)
    | (.err e, p) => (.err e, p)
    | (.panic, p) => (.panic, p)
    | (.hang, p) => (.hang, p)) (from_initPeer (Peer.new ⟨[], 0⟩ infoHash peerId)) ?_
  rintro ⟨_ | _ | _ | _, p⟩
  · refine Played.map (β := Res PeerManagerError Info × Peer) (fun x : Res DownloadableError Bytes × Peer => match x with
      | (.ok b, p) => ((Info.fromBytes b).mapErr .info, p)
      | (.err e, p) => (.err (.download e), p)
      | (.panic, p) => (.panic, p)
      | (.hang, p) => (.hang, p)) (from_download m .info f p) ?_
    rintro ⟨_ | _ | _ | _, p⟩ <;> rfl
  all_goals exact Played.const _ rfl

theorem played_downloadRun (sha : Bytes → Bytes) (m : Build) (f : Nat) (peerId : Bytes) (info : Info) (idx : Nat) :
    Played 0 [] (fun net => downloadRun sha m net f peerId info idx) onPeer := by
  refine Played.bind (β := Res PeerManagerError Bytes × Peer) (fun (x : Res PeerManagerError Unit × Peer) net => match x with
    | (.ok (), p) =>
      match (info.getTotalLength m : Res PeerManagerError Nat) with
      | .ok total =>
        match (Downloadable.block info.pieceLength idx total).download m net f p with
        | (.ok piece, p) =>
          ((info.verifyPiece sha piece idx : Res PeerManagerError Bool) >>= fun ok =>
            if ok then .ok piece else .err .pieceVerificationFailure, p)
        | (.err e, p) => (.err (.pieceDownloadFailure e), p)
        | (.panic, p) => (.panic, p)
        | (.hang, p) => (.hang, p)
      | .err e => (.err e, p)
      | .panic => (.panic, p)
      | .hang => (.hang, p)
    | (.err e, p) => (.err e, p)
    | (.panic, p) => (.panic, p)
    | (.hang, p) => (.hang, p)) (from_initPeer (Peer.new ⟨[], 0⟩ (info.computeInfoHash sha) peerId)) ?_
  rintro ⟨_ | _ | _ | _, p⟩
  · simp only []
    split
    · refine Played.map (β := Res PeerManagerError Bytes × Peer) (fun x : Res DownloadableError Bytes × Peer => match x with
        | (.ok piece, p) =>
          ((info.verifyPiece sha piece idx : Res PeerManagerError Bool) >>= fun ok =>
            if ok then .ok piece else .err .pieceVerificationFailure, p)
        | (.err e, p) => (.err (.pieceDownloadFailure e), p)
        | (.panic, p) => (.panic, p)
        | (.hang, p) => (.hang, p)) (from_download m _ f p) ?_
      rintro ⟨_ | _ | _ | _, p⟩ <;> rfl
    all_goals exact Played.const _ rfl
  all_goals exact Played.const _ rfl

/-! ### Listeners and schedules -/

theorem Dialogue.run_congr {α : Type} (net net' : Net) : ∀ (T : Dialogue α) (t : Nat) (w : List Bytes),
    (∀ i, t ≤ i → i < (T.run net t w).2.1 → net i = net' i) → T.run net t w = T.run net' t w
  | .over _, _, _, _ => rfl
  | .call says next, t, w, h => by
    simp only [Spec.Dialogue.run] at h ⊢
    have ht : ∀ (T : Dialogue α) (t : Nat) (w : List Bytes), t ≤ (T.run net t w).2.1 := by
      intro T
      induction T with
      | over _ => intro t w; exact Nat.le_refl t
      | call says next ih => intro t w; simp only [Spec.Dialogue.run]; exact Nat.le_trans (Nat.le_succ t) (ih (net t) (t + 1) _)
    have e : net t = net' t := h t (Nat.le_refl t) (ht _ _ _)
    rw [← e]
    exact run_congr net net' (next (net t)) (t + 1) _ fun i hi hj => h i (by omega) hj

theorem Dialogue.run_ge {α : Type} (net : Net) (T : Dialogue α) : ∀ (t : Nat) (w : List Bytes), t ≤ (T.run net t w).2.1 := by
  induction T with
  | over _ => intro t w; exact Nat.le_refl t
  | call says next ih => intro t w; simp only [Spec.Dialogue.run]; exact Nat.le_trans (Nat.le_succ t) (ih (net t) (t + 1) _)

theorem Dialogue.before_congr {α : Type} (net net' : Net) (n : Nat) (h : SameUntil n net net') : ∀ (T : Dialogue α) (t : Nat) (w : List Bytes),
    T.before net n t w = T.before net' n t w
  | .over _, _, _ => rfl
  | .call says next, t, w => by
    simp only [Spec.Dialogue.before]
    by_cases ht : t < n
    · simp only [ht, if_true]; rw [← h t ht]; exact before_congr net net' n h (next (net t)) (t + 1) _
    · simp only [ht, if_false]

theorem Dialogue.run_grows {α : Type} (net : Net) (T : Dialogue α) : ∀ (t : Nat) (w : List Bytes), w <+: (T.run net t w).2.2 := by
  induction T with
  | over _ => intro t w; exact List.prefix_refl w
  | call says next ih => intro t w; simp only [Spec.Dialogue.run]; exact List.IsPrefix.trans (List.prefix_append _ _) (ih (net t) (t + 1) _)

theorem Dialogue.before_prefix {α : Type} (net : Net) (n : Nat) : ∀ (T : Dialogue α) (t : Nat) (w : List Bytes),
    T.before net n t w <+: (T.run net t w).2.2
  | .over _, _, w => List.prefix_refl w
  | .call says next, t, w => by
    simp only [Spec.Dialogue.before]
    split
    · exact before_prefix net n (next (net t)) (t + 1) _
    · exact Dialogue.run_grows net (.call says next) t w

theorem Dialogue.before_all {α : Type} (net : Net) (n : Nat) : ∀ (T : Dialogue α) (t : Nat) (w : List Bytes),
    (T.run net t w).2.1 ≤ n → T.before net n t w = (T.run net t w).2.2
  | .over _, _, _, _ => rfl
  | .call says next, t, w, h => by
    simp only [Spec.Dialogue.run] at h
    have ht : t < n := Nat.lt_of_lt_of_le (Dialogue.run_ge net _ (t + 1) _) h
    simp only [Spec.Dialogue.before, ht, if_true, Spec.Dialogue.run]
    exact before_all net n (next (net t)) (t + 1) _ h

/-- What happens at the calls when a listener is met, beginning with `past`. -/
theorem Dialogue.meet_run {α : Type} (σ : Listener) : ∀ (T : Dialogue α) (past : List NetEv) (w : List Bytes) (net : Net),
    (∀ (i : Nat) (e : NetEv), (T.meet σ past w).2.1[i]? = some e → net i = e) →
      T.run net past.length w = ((T.meet σ past w).1, (T.meet σ past w).2.1.length, (T.meet σ past w).2.2)
  | .over _, _, _, _, _ => rfl
  | .call says next, past, w, net, h => by
    simp only [Spec.Dialogue.run]
    simp only [Spec.Dialogue.meet] at h ⊢
    have hp : ∀ (T : Dialogue α) (past : List NetEv) (w : List Bytes), past <+: (T.meet σ past w).2.1 := by
      intro T
      induction T with
      | over _ => intro past w; exact List.prefix_refl past
      | call says next ih => intro past w; simp only [Spec.Dialogue.meet]; exact List.IsPrefix.trans (List.prefix_append _ _) (ih _ _ _)
    have e : net past.length = σ (w ++ says.toList) past := by
      refine h past.length _ ?_
      obtain ⟨x, hx⟩ := hp (next (σ (w ++ says.toList) past)) (past ++ [σ (w ++ says.toList) past]) (w ++ says.toList)
      rw [← hx]
      simp
    rw [e]
    have := meet_run σ (next (σ (w ++ says.toList) past)) (past ++ [σ (w ++ says.toList) past]) (w ++ says.toList) net h
    rwa [List.length_append, List.length_singleton] at this

end RustBit
