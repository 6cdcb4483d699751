/-
The records of an attempt with a peer against its history.
-/
import Verif.Proofs.Download
import Verif.Spec.LogTells

namespace RustBit
open Spec

/-- The messages that the program names in its log. -/
def isNamed (m : Message) : Bool := m.id = 0 ∨ m.id = 1 ∨ m.id = 2 ∨ m.id = 5 ∨ m.id = 19 ∨ m.id = 20

/-- Between the states `p` and `q` of a peer, `l` was logged and is a faithful account; under the condition `W`, it mentions no failure to send. -/
structure Tells (W : Prop) (l : List LogRec) (p q : Peer) : Prop where
  id : q.id = p.id
  hash : q.infoHash = p.infoHash
  started : started l = []
  completed : completed l = []
  history : ∃ new, q.log = p.log ++ new ∧ named l = ((came new).filter isNamed).map (fun m => (p.id, m.id)) ∧
    printed l = ((came new).filter fun m => m.id = 2).map (fun m => (p.id, m)) ∧ List.Sublist (unsent l) (written new)
  fine : W → unsent l = []

variable {W : Prop}

theorem Tells.refl (p : Peer) : Tells W [] p p := ⟨rfl, rfl, rfl, rfl, ⟨[], by simp, rfl, rfl, .slnil⟩, fun _ => rfl⟩

theorem Tells.trans {l1 l2 : List LogRec} {p q r : Peer} (h1 : Tells W l1 p q) (h2 : Tells W l2 q r) : Tells W (l1 ++ l2) p r := by
  obtain ⟨a1, a6, a2, a3, ⟨n1, a4, a5, a7, a8⟩, a9⟩ := h1
  obtain ⟨b1, b6, b2, b3, ⟨n2, b4, b5, b7, b8⟩, b9⟩ := h2
  refine ⟨b1.trans a1, b6.trans a6, ?_, ?_, ⟨n1 ++ n2, by rw [b4, a4, List.append_assoc], ?_, ?_, ?_⟩, fun w => ?_⟩
  · rw [Spec.started, List.filterMap_append]; exact by rw [show List.filterMap _ l1 = [] from a2, show List.filterMap _ l2 = [] from b2]; rfl
  · rw [Spec.completed, List.filterMap_append]; exact by rw [show List.filterMap _ l1 = [] from a3, show List.filterMap _ l2 = [] from b3]; rfl
  · simp only [named, came, List.filterMap_append, List.filter_append, List.map_append] at *
    rw [a5, b5, a1]
  · simp only [printed, came, List.filterMap_append, List.filter_append, List.map_append] at *
    rw [a7, b7, a1]
  · simp only [unsent, written, List.filterMap_append] at *
    exact a8.append b8
  · rw [unsent, List.filterMap_append]; exact by rw [show List.filterMap _ l1 = [] from a9 w, show List.filterMap _ l2 = [] from b9 w]; rfl

/-- Only the connection changed, and nothing that counts was logged. -/
theorem Tells.quiet {l : List LogRec} {p q : Peer} (hid : q.id = p.id) (hh : q.infoHash = p.infoHash) (hlog : q.log = p.log)
    (h : ∀ r ∈ l, (∃ n, r = .notText n) ∨ (∃ n, r = .notNumber n) ∨ (∃ e, r = .extensionBad e) ∨ (∃ v, r = .noExtensionValue v) ∨ ∃ b, r = .noMessage b) :
    Tells W l p q := by
  have key : ∀ {β : Type} (f : LogRec → Option β), (∀ n, f (.notText n) = none) → (∀ n, f (.notNumber n) = none) → (∀ n, f (.extensionBad n) = none) →
      (∀ n, f (.noExtensionValue n) = none) → (∀ n, f (.noMessage n) = none) → l.filterMap f = [] := by
    intro β f h1 h2 h3 h4 h5
    rw [List.filterMap_eq_nil_iff]
    intro r hr
    rcases h r hr with ⟨n, rfl⟩ | ⟨n, rfl⟩ | ⟨n, rfl⟩ | ⟨n, rfl⟩ | ⟨n, rfl⟩
    · exact h1 n
    · exact h2 n
    · exact h3 n
    · exact h4 n
    · exact h5 n
  refine ⟨hid, hh, ?_, ?_, ⟨[], by simp [hlog], ?_, ?_, ?_⟩, fun _ => ?_⟩
  · exact key _ (fun _ => rfl) (fun _ => rfl) (fun _ => rfl) (fun _ => rfl) (fun _ => rfl)
  · exact key _ (fun _ => rfl) (fun _ => rfl) (fun _ => rfl) (fun _ => rfl) (fun _ => rfl)
  · exact key _ (fun _ => rfl) (fun _ => rfl) (fun _ => rfl) (fun _ => rfl) (fun _ => rfl)
  · exact key _ (fun _ => rfl) (fun _ => rfl) (fun _ => rfl) (fun _ => rfl) (fun _ => rfl)
  · rw [show unsent l = [] from key _ (fun _ => rfl) (fun _ => rfl) (fun _ => rfl) (fun _ => rfl) (fun _ => rfl)]
    exact List.nil_sublist _
  · exact key _ (fun _ => rfl) (fun _ => rfl) (fun _ => rfl) (fun _ => rfl) (fun _ => rfl)

theorem decodeLog_quiet (env : LogEnv) (c : Bytes) : ∀ r ∈ decodeLog env c, (∃ n, r = .notText n) ∨ (∃ n, r = .notNumber n) := by
  intro r hr
  unfold decodeLog at hr
  split at hr
  · simp only [List.mem_singleton] at hr; exact .inl ⟨_, hr⟩
  · simp only [List.mem_singleton] at hr; exact .inr ⟨_, hr⟩
  · cases hr

theorem newRawLog_quiet (env : LogEnv) (body : Bytes) (id : UInt8) : ∀ r ∈ newRawLog env body id,
    (∃ n, r = .notText n) ∨ (∃ n, r = .notNumber n) ∨ (∃ e, r = .extensionBad e) ∨ (∃ v, r = .noExtensionValue v) ∨ ∃ b, r = .noMessage b := by
  intro r hr
  unfold newRawLog extensionLog at hr
  split at hr
  · split at hr
    · rename_i body' _
      rcases List.mem_append.mp hr with hr | hr
      · rcases decodeLog_quiet env body' r hr with h | h
        · exact .inl h
        · exact .inr (.inl h)
      · split at hr
        · simp only [List.mem_singleton] at hr; exact .inr (.inr (.inl ⟨_, hr⟩))
        · split at hr
          · unfold noIntegers at hr
            obtain ⟨⟨k, v⟩, -, hx⟩ := List.mem_filterMap.mp hr
            cases v <;> simp only [reduceCtorEq, Option.some.injEq] at hx <;> exact .inr (.inr (.inr (.inl ⟨_, hx.symm⟩)))
          · cases hr
        · cases hr
    · cases hr
  · cases hr

theorem applyState_keeps (p : Peer) (m : Message) : (p.applyState m).id = p.id ∧ (p.applyState m).infoHash = p.infoHash := by
  unfold Peer.applyState Peer.applyContent
  split
  · exact ⟨rfl, rfl⟩
  split
  · exact ⟨rfl, rfl⟩
  split
  · split <;> (try split) <;> exact ⟨rfl, rfl⟩
  · exact ⟨rfl, rfl⟩

theorem tells_apply (p : Peer) {body : Bytes} {len : Nat} {id : UInt8} {m : Message} (h : Message.newRaw body len id = .ok m) :
    Tells W (p.applyLog m) p (p.applyMessage m) := by
  obtain ⟨hid, -, hc⟩ := newRaw_id h
  have hs := applyState_keeps p m
  have hn : ∀ l, p.applyLog m = l → started l = [] → completed l = [] →
      named l = ([m].filter isNamed).map (fun m => (p.id, m.id)) → printed l = ([m].filter fun m => m.id = 2).map (fun m => (p.id, m)) →
      unsent l = [] → Tells W (p.applyLog m) p (p.applyMessage m) := by
    rintro l rfl h1 h2 h3 h4 h5
    exact ⟨hs.1, hs.2, h1, h2, ⟨[.got m], rfl, h3, h4, by rw [h5]; exact List.nil_sublist _⟩, fun _ => h5⟩
  have e : m.id = id := hid
  unfold Message.contentOf at hc
  by_cases h0 : m.id = 0
  · exact hn [.gotMessage p.id m.id] (by rw [Peer.applyLog, if_pos (.inl h0)]) rfl rfl (by simp [named, isNamed, h0]) (by simp [printed, h0]) rfl
  by_cases h1 : m.id = 1
  · exact hn [.gotMessage p.id m.id] (by rw [Peer.applyLog, if_pos (.inr h1)]) rfl rfl (by simp [named, isNamed, h1]) (by simp [printed, h1]) rfl
  by_cases h2 : m.id = 2
  · rw [if_pos (by rw [← e, h2])] at hc
    simp only [Res.ok.injEq] at hc
    exact hn [.gotMessage p.id m.id, .notManaged p.id m]
      (by rw [Peer.applyLog, if_neg (by simp [h2]), if_pos (.inl h2), Peer.contentLog, ← hc]) rfl rfl (by simp [named, isNamed, h2]) (by simp [printed, h2]) rfl
  have rest : (m.id = 5 ∨ m.id = 19 ∨ m.id = 20) → p.contentLog m = [] → Tells W (p.applyLog m) p (p.applyMessage m) := by
    intro hx hl
    exact hn [.gotMessage p.id m.id] (by rw [Peer.applyLog, if_neg (by simp [h0, h1]), if_pos (.inr hx), hl]) rfl rfl
      (by
        have ht : isNamed m = true := by simp [isNamed, hx]
        rw [List.filter_cons, if_pos ht]
        rfl) (by simp [printed, h2]) rfl
  by_cases h5 : m.id = 5
  · rw [if_neg (by rw [← e]; exact h2), if_pos (by rw [← e, h5])] at hc
    simp only [Res.ok.injEq] at hc
    exact rest (.inl h5) (by rw [Peer.contentLog, ← hc])
  by_cases h20 : m.id = 20
  · rw [if_neg (by rw [← e]; exact h2), if_neg (by rw [← e]; exact h5), if_neg (by rw [← e, h20]; decide), if_pos (by rw [← e, h20])] at hc
    obtain ⟨x, -, hc⟩ := bind_eq_ok hc
    simp only [Res.ok.injEq] at hc
    exact rest (.inr (.inr h20)) (by rw [Peer.contentLog, ← hc])
  by_cases h19 : m.id = 19
  · rw [if_neg (by rw [← e]; exact h2), if_neg (by rw [← e]; exact h5), if_neg (by rw [← e, h19]; decide), if_neg (by rw [← e]; exact h20),
      if_pos (by rw [← e, h19])] at hc
    obtain ⟨x, -, hc⟩ := bind_eq_ok hc
    simp only [Res.ok.injEq] at hc
    exact rest (.inr (.inl h19)) (by rw [Peer.contentLog, ← hc])
  exact hn [] (by rw [Peer.applyLog, if_neg (by simp [h0, h1]), if_neg (by simp [h2, h5, h19, h20])]) rfl rfl
    (by simp [named, isNamed, h0, h1, h2, h5, h19, h20]) (by simp [printed, h2]) rfl

/-- Reading a message, which is applied if there is one. -/
theorem tells_read (env : LogEnv) {ε : Type} (net : Net) (p : Peer) (no : List LogRec) (hno : ∀ r ∈ no, ∃ b, r = .noMessage b) :
    match (p.readMessage net : Res ε (Option Message) × Peer) with
    | (.ok (some m), q) => Tells W (p.readLog env net no) p (q.applyMessage m)
    | (_, q) => Tells W (p.readLog env net no) p q := by
  have hq : ∀ (l : List LogRec) (c : Conn), (∀ r ∈ l, (∃ n, r = .notText n) ∨ (∃ n, r = .notNumber n) ∨ (∃ e, r = .extensionBad e) ∨
      (∃ v, r = .noExtensionValue v) ∨ ∃ b, r = .noMessage b) → Tells W l p { p with conn := c } := fun l c h => Tells.quiet rfl rfl rfl h
  have hno' : ∀ r ∈ no, (∃ n, r = .notText n) ∨ (∃ n, r = .notNumber n) ∨ (∃ e, r = .extensionBad e) ∨ (∃ v, r = .noExtensionValue v) ∨
      ∃ b, r = .noMessage b := fun r hr => .inr (.inr (.inr (.inr (hno r hr))))
  unfold Peer.readMessage Peer.readLog
  cases hr : readStream net p.conn with
  | mk a c =>
    cases a with
    | none => exact hq no c hno'
    | some x =>
      obtain ⟨body, id, len⟩ := x
      simp only []
      have hraw := newRawLog_quiet env body id
      cases hn : Message.newRaw body len id with
      | ok m =>
        simp only []
        exact (hq _ c hraw).trans (tells_apply _ hn)
      | err e => exact hq _ c (by
          intro r hr
          rcases List.mem_append.mp hr with hr | hr
          · exact hraw r hr
          · exact hno' r hr)
      | panic => simp only [List.append_nil]; exact hq _ c hraw
      | hang => simp only [List.append_nil]; exact hq _ c hraw

theorem tells_readAndApply (env : LogEnv) (net : Net) (p : Peer) (no : List LogRec) (hno : ∀ r ∈ no, ∃ b, r = .noMessage b) :
    Tells W (p.readLog env net no) p (readAndApply net p).2 := by
  have := tells_read (W := W) env (ε := PeerManagerError) net p no hno
  unfold readAndApply
  generalize (p.readMessage net : Res PeerManagerError (Option Message) × Peer) = r at this
  obtain ⟨a, q⟩ := r
  rcases a with (_ | m) | e | _ | _ <;> exact this

/-- Writing, with a record if it fails. -/
theorem tells_write (env : LogEnv) (net : Net) (hW : W → ∀ c : Conn, (c.writeAll net).1 = true) (p : Peer) (bytes : Bytes) : Tells W (p.writeLog env net bytes) p (p.write net bytes).2 := by
  unfold Peer.writeLog Peer.write
  cases h : p.conn.writeAll net with
  | mk ok c =>
    cases ok with
    | true => exact ⟨rfl, rfl, rfl, rfl, ⟨[.sent bytes], rfl, rfl, rfl, List.nil_sublist _⟩, fun _ => rfl⟩
    | false => exact ⟨rfl, rfl, rfl, rfl, ⟨[.sent bytes], rfl, rfl, rfl, List.Sublist.refl _⟩, fun w => by have := hW w p.conn; rw [h] at this; cases this⟩

/-- Writing without a record. -/
theorem tells_silent (net : Net) (p : Peer) (bytes : Bytes) : Tells W [] p (p.write net bytes).2 := by
  unfold Peer.write
  cases h : p.conn.writeAll net with
  | mk ok c => exact ⟨rfl, rfl, rfl, rfl, ⟨[.sent bytes], rfl, rfl, rfl, List.nil_sublist _⟩, fun _ => rfl⟩

theorem tells_readyLoop (env : LogEnv) (net : Net) (k : Nat) : ∀ p, Tells W (readyLoopLog env net k p) p (readyLoop net k p).2 := by
  induction k with
  | zero => intro p; exact Tells.refl p
  | succ k ih =>
    intro p
    have h := tells_readAndApply (W := W) env net p [.noMessage false] (by simp)
    rw [readyLoopLog, readyLoop]
    generalize readAndApply net p = r at h
    obtain ⟨a, q⟩ := r
    cases a with
    | ok u =>
      simp only []
      by_cases hq : q.isReady = true
      · rw [if_pos hq, if_pos hq, List.append_nil]; exact h
      · rw [if_neg hq, if_neg hq]; exact h.trans (ih q)
    | err e => simp only [List.append_nil]; exact h
    | panic => simp only [List.append_nil]; exact h
    | hang => simp only [List.append_nil]; exact h

theorem tells_initPeer (env : LogEnv) (net : Net) (hW : W → ∀ c : Conn, (c.writeAll net).1 = true) (p : Peer) : Tells W (initPeerLog env net p) p (initPeer net p).2 := by
  unfold initPeerLog initPeer
  have h0 : Tells W _ p (p.sendMessage net (newHandshake p.infoHash p.id)) := tells_write env net hW p (newHandshake p.infoHash p.id).asBytes
  refine h0.trans ?_
  generalize p.sendMessage net (newHandshake p.infoHash p.id) = p
  have h := tells_readAndApply (W := W) env net p [.noMessage true] (by simp)
  simp only []
  generalize readAndApply net p = r at h
  obtain ⟨a, q⟩ := r
  cases a with
  | ok u =>
    simp only [] at h ⊢
    by_cases hq : (!q.active) = true
    · rw [if_pos hq, if_pos hq, List.append_nil]; exact h
    · rw [if_neg hq, if_neg hq]
      refine h.trans ?_
      have h1 : Tells W _ q (q.sendMessage net newInterested) := tells_write env net hW q newInterested.asBytes
      refine h1.trans ?_
      generalize q.sendMessage net newInterested = q
      have h2 : Tells W [] q (q.sendMetadataHandshakeRequest net).2 := tells_silent net q extensionHandshakeBytes
      generalize q.sendMetadataHandshakeRequest net = r at h2
      obtain ⟨b, q'⟩ := r
      cases b with
      | false => exact h2
      | true => exact h2.trans (tells_readyLoop env net 10 q')
  | err e => simp only [List.append_nil]; exact h
  | panic => simp only [List.append_nil]; exact h
  | hang => simp only [List.append_nil]; exact h

/-- The peer after some iterations. -/
def Flow.peer : Flow → Peer
  | .again s => s.peer
  | .done _ p => p

theorem tells_tail (env : LogEnv) (m : Build) (net : Net) (hW : W → ∀ c : Conn, (c.writeAll net).1 = true) (d : Downloadable) (s : DState) :
    Tells W (execTailLog env m net d s) s.peer (execTail m net d s).peer := by
  unfold execTailLog execTail
  by_cases h1 : s.buf.isFull = true
  · rw [if_pos h1, if_pos h1]; exact Tells.refl _
  rw [if_neg h1, if_neg h1]
  by_cases h2 : s.peer.choked = true
  · rw [if_pos h2, if_pos h2]; exact Tells.refl _
  rw [if_neg h2, if_neg h2]
  unfold MessageBuffer.requestLog MessageBuffer.requestNextMessage
  by_cases h3 : (s.buf.isLenAsExpected || s.buf.isFull) = true
  · rw [if_pos h3, if_pos h3]
    simp only []
    split <;> exact Tells.refl _
  rw [if_neg h3, if_neg h3]
  cases hr : (d.request m s.peer s.buf.buffer.length : Res DownloadableError Message) with
  | ok msg =>
    simp only []
    have := tells_write env net hW s.peer msg.asBytes
    split <;> exact this
  | err e => exact Tells.refl _
  | panic => exact Tells.refl _
  | hang => exact Tells.refl _

theorem tells_step (env : LogEnv) (m : Build) (net : Net) (hW : W → ∀ c : Conn, (c.writeAll net).1 = true) (d : Downloadable) (s : DState) :
    Tells W (execStepLog env m net d s) s.peer (execStep m net d s).peer := by
  unfold execStepLog execStep
  have := tells_read (W := W) env (ε := DownloadableError) net s.peer [] (by simp)
  generalize (s.peer.readMessage net : Res DownloadableError (Option Message) × Peer) = r at this
  obtain ⟨a, q⟩ := r
  rcases a with (_ | msg) | e | _ | _
  · exact this.trans (tells_tail env m net hW d { s with peer := q })
  · exact this.trans (tells_tail env m net hW d ⟨q.applyMessage msg, s.buf.pushMessage d msg, 0⟩)
  · simp only [List.append_nil]; exact this
  · simp only [List.append_nil]; exact this
  · simp only [List.append_nil]; exact this

theorem tells_run (env : LogEnv) (m : Build) (net : Net) (hW : W → ∀ c : Conn, (c.writeAll net).1 = true) (d : Downloadable) (f : Nat) : ∀ s,
    Tells W (execRunLog env m net d f s) s.peer (execRun m net d f s).peer := by
  induction f with
  | zero => intro s; exact Tells.refl _
  | succ f ih =>
    intro s
    have h := tells_step env m net hW d s
    rw [execRunLog, execRun]
    generalize execStep m net d s = r at h
    cases r with
    | again s' => exact h.trans (ih s')
    | done r p => simp only [List.append_nil]; exact h

end RustBit
