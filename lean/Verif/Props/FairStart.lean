/-
Property C112: what every fair run does between a request and the start of the download.
-/
import Verif.Props.FairRuns
import Verif.Spec.Prompt

namespace RustBit
open Spec

/-! ### Every message is handled -/

theorem handled_step {w : World} {s t : Sys} (h : Step w s t) : ∃ c, t.handled = s.handled ++ c := by
  cases h with
  | announce | take | finishOk | finishErr | finishPanic | write => exact ⟨[], by simp⟩
  | success | failed | collect | found => exact ⟨_, rfl⟩

theorem handled_move {w : World} {s t : Slot} (h : Move w s t) : ∃ c, t.sys.handled = s.sys.handled ++ c := by
  cases h with
  | still _ fs e => rw [e]; exact ⟨[], by simp⟩
  | act _ fs hst hw => exact handled_step (s := { s.sys with fs }) hst
  | told _ fs p e => rw [e]; exact ⟨[], by simp⟩
  | begin ws hp e => rw [e]; exact ⟨[], by simp⟩
  | part x xs hp e => rw [e]; exact ⟨[], by simp⟩
  | done r ready up hr e => rw [e]; exact ⟨[], by simp [Slot.done]⟩

theorem handled_later {w : World} {Q : Info → Prop} {fs : FS} {n : Nat} {run : Nat → App} (h : Run w Q fs n run) {i j k : Nat} (hij : i ≤ j) {s t : Slot}
    (hs : (run i).proc.slots[k]? = some s) (ht : (run j).proc.slots[k]? = some t) : ∃ c, t.sys.handled = s.sys.handled ++ c := by
  obtain ⟨f, f0, fk, fm⟩ := run_slots (Run.shift h i) (k := k) (s := s) hs
  obtain ⟨d, rfl⟩ := Nat.exists_eq_add_of_le hij
  have hd : ∀ d, ∃ c, (f d).sys.handled = s.sys.handled ++ c := by
    intro d
    induction d with
    | zero => rw [f0]; exact ⟨[], by simp⟩
    | succ d ih =>
      obtain ⟨c, hc⟩ := ih
      obtain ⟨c', hc'⟩ := handled_move (fm d)
      exact ⟨c ++ c', by rw [hc', hc, List.append_assoc]⟩
  have := fk d
  rw [ht] at this
  rw [Option.some.inj this]
  exact hd d

theorem run_slot_at {w : World} {Q : Info → Prop} {fs : FS} {n : Nat} {run : Nat → App} (h : Run w Q fs n run) {i j k : Nat} (hij : i ≤ j) {s : Slot}
    (hs : (run i).proc.slots[k]? = some s) : ∃ t, (run j).proc.slots[k]? = some t := by
  obtain ⟨f, -, fk, -⟩ := run_slots (Run.shift h i) (k := k) (s := s) hs
  obtain ⟨d, rfl⟩ := Nat.exists_eq_add_of_le hij
  exact ⟨_, fk d⟩

/-- C112: in every fair run, as long as its thread does not get stuck and its actor does not end, a torrent handles every message it gets, in order. -/
theorem C112_handles {w : World} {Q : Info → Prop} {fs : FS} {n : Nat} {run : Nat → App} (h : Run w Q fs n run) {k : Nat} (hf : Fair run k)
    (hfree : ∀ i, (run i).Free k) (hup : StaysUp run k) {i : Nat} {s : Slot} (hs : (run i).proc.slots[k]? = some s) :
    ∃ j, i ≤ j ∧ ∀ j', j ≤ j' → ∃ t c, (run j').proc.slots[k]? = some t ∧ t.sys.handled = s.sys.handled ++ s.sys.mail ++ c := by
  obtain ⟨N, hN⟩ : ∃ N, (s.sys.handled ++ s.sys.mail).length = N := ⟨_, rfl⟩
  -- so many are handled at some time
  have key : ∀ d j t, i ≤ j → (run j).proc.slots[k]? = some t → N ≤ t.sys.handled.length + d →
      ∃ j' t', i ≤ j' ∧ (run j').proc.slots[k]? = some t' ∧ N ≤ t'.sys.handled.length := by
    intro d
    induction d with
    | zero => exact fun j t hij ht hle => ⟨j, t, hij, ht, hle⟩
    | succ d ih =>
      intro j t hij ht hle
      by_cases hlt : N ≤ t.sys.handled.length
      · exact ⟨j, t, hij, ht, hlt⟩
      · have hne : t.sys.mail ≠ [] := by
          intro e
          obtain ⟨a, ha⟩ := (run_later h hij hs ht).mail
          rw [e, List.append_nil] at ha
          have := congrArg List.length ha
          rw [List.length_append, hN] at this
          omega
        obtain ⟨j', t', h1, h2, h3⟩ := hf.handles j t ht hne (hup j t ht) (fun j _ => hfree j)
        obtain ⟨c, hc⟩ := handled_later h h1 ht h2
        refine ih j' t' (by omega) h2 ?_
        have hlen := congrArg List.length hc
        rw [List.length_append] at hlen
        cases c with
        | nil => rw [List.append_nil] at hc; exact absurd hc h3
        | cons m c => simp only [List.length_cons] at hlen; omega
  obtain ⟨j, t, hij, ht, hle⟩ := key _ i s (Nat.le_refl _) hs (Nat.le_add_left _ _)
  refine ⟨j, hij, fun j' hj' => ?_⟩
  obtain ⟨t', ht'⟩ := run_slot_at h hj' ht
  obtain ⟨c', hc'⟩ := handled_later h hj' ht ht'
  obtain ⟨a, ha⟩ := (run_later h (by omega : i ≤ j') hs ht').mail
  refine ⟨t', t'.sys.handled.drop N, ht', ?_⟩
  have hle' : N ≤ t'.sys.handled.length := by
    have := congrArg List.length hc'
    rw [List.length_append] at this
    omega
  have e1 : (t'.sys.handled ++ t'.sys.mail).take N = t'.sys.handled.take N := List.take_append_of_le_length hle'
  rw [ha, ← hN, List.take_left, hN] at e1
  rw [e1, List.take_append_drop]

/-- The peer a message is about. -/
def peerOf : Mail → Option PeerEndpoint
  | .found p => some p
  | _ => none

theorem told_peerOf (s : Sys) : s.told = (s.handled ++ s.mail).filterMap peerOf := by
  rw [Sys.told]
  congr 1

theorem told_handled (s : Sys) : s.told = s.handled.filterMap peerOf ++ s.mail.filterMap peerOf := by
  rw [told_peerOf, List.filterMap_append]

theorem told_later {w : World} {Q : Info → Prop} {fs : FS} {n : Nat} {run : Nat → App} (h : Run w Q fs n run) {i j k : Nat} (hij : i ≤ j) {s t : Slot}
    (hs : (run i).proc.slots[k]? = some s) (ht : (run j).proc.slots[k]? = some t) : ∃ c, t.sys.told = s.sys.told ++ c := by
  obtain ⟨a, ha⟩ := (run_later h hij hs ht).mail
  exact ⟨a.filterMap peerOf, by rw [told_peerOf, told_peerOf, ha, List.filterMap_append]⟩

theorem peersAfter_endpoints (l : List Mail) : (peersAfter l).map TPeer.endpoint = (l.filterMap peerOf).map PeerEndpoint.endpoint := by
  induction l with
  | nil => rfl
  | cons m l ih => cases m <;> simp [peersAfter, peerOf, List.filterMap_cons, ih]

/-- C112: in every fair run there comes a time from which on the torrent has looked at every peer it is ever told of. -/
theorem C112_heard {w : World} {Q : Info → Prop} {fs : FS} {n : Nat} {run : Nat → App} (h : Run w Q fs n run) {k : Nat} (hf : Fair run k)
    (hfree : ∀ i, (run i).Free k) (hup : StaysUp run k) {s : Slot} (hs : (run 0).proc.slots[k]? = some s) :
    ∃ (l : List PeerEndpoint) (i : Nat), ∀ j, i ≤ j → ∃ t, (run j).proc.slots[k]? = some t ∧ t.sys.told = l ∧ (∀ p, .found p ∉ t.sys.mail) ∧
      t.sys.torrent.peers.map TPeer.endpoint = l.map PeerEndpoint.endpoint := by
  obtain ⟨f, f0, fk, fm⟩ := run_slots h hs
  have hle : ∀ i, (f i).sys.told.length ≤ 18 * 663 := fun i => (C109_peers (run_asteps h i) (List.mem_of_getElem? (fk i))).2
  have hmono : ∀ i j, i ≤ j → ∃ c, (f j).sys.told = (f i).sys.told ++ c := fun i j hij => told_later h hij (fk i) (fk j)
  obtain ⟨a, -, ha⟩ := settles (fun i => 18 * 663 - (f i).sys.told.length) 0 fun i _ => by
    obtain ⟨c, hc⟩ := hmono i (i + 1) (by omega)
    simp only [hc, List.length_append]
    omega
  have hsame : ∀ i, a ≤ i → (f i).sys.told = (f a).sys.told := by
    intro i hi
    obtain ⟨c, hc⟩ := hmono a i hi
    have h1 := ha i hi
    have h2 := hle i
    have h3 := hle a
    rw [hc] at h2 ⊢
    simp only [hc, List.length_append] at h1 h2
    rw [List.length_eq_zero_iff.mp (show c.length = 0 by omega), List.append_nil]
  obtain ⟨b, hab, hb⟩ := C112_handles h hf hfree hup (fk a)
  refine ⟨(f a).sys.told, b, fun j hj => ?_⟩
  obtain ⟨t, c, ht, hc⟩ := hb j hj
  have hft : t = f j := by
    rw [fk j] at ht
    exact (Option.some.inj ht).symm
  subst hft
  have e := hsame j (by omega)
  have e2 : (f j).sys.mail.filterMap peerOf = [] := by
    have h1 := told_handled (f j).sys
    rw [e, told_handled, hc, List.filterMap_append, List.filterMap_append] at h1
    have h2 := congrArg List.length h1
    simp only [List.length_append] at h2
    exact List.length_eq_zero_iff.mp (by omega)
  refine ⟨f j, ht, e, fun p hp => ?_, ?_⟩
  · have := List.filterMap_eq_nil_iff.mp e2 _ hp
    cases this
  · rw [C84_counters (run_asteps h j) (List.mem_of_getElem? ht), ← e, told_handled, e2, List.append_nil]
    exact peersAfter_endpoints _

/-! ### When a torrent starts -/

/-- What a step does to the number of peers, and when the download starts. -/
theorem peers_step {w : World} {info : Info} {n : Nat} {s t : Sys} (h : Known w info n s) (hn : 0 < n) (hst : Step w s t) :
    (t.torrent.peers.length = s.torrent.peers.length ∧ t.torrent.initiated = s.torrent.initiated) ∨
    (t.torrent.peers.length = s.torrent.peers.length + 1 ∧ (t.torrent.initiated = true ↔ s.torrent.initiated = true ∨ 10 < t.torrent.peers.length)) := by
  cases hst with
  | announce => exact .inl ⟨rfl, rfl⟩
  | take => exact .inl ⟨rfl, rfl⟩
  | finishOk => exact .inl ⟨rfl, rfl⟩
  | finishErr => exact .inl ⟨rfl, rfl⟩
  | finishPanic => exact .inl ⟨rfl, rfl⟩
  | write => exact .inl ⟨rfl, rfl⟩
  | success e pc i rest hd hm =>
    left
    show (s.torrent.onSuccess e pc i).torrent.peers.length = _ ∧ (s.torrent.onSuccess e pc i).torrent.initiated = _
    obtain ⟨files, hfi⟩ := getFiles_of_total h.total
    simp only [Torrent.onSuccess, h.hasInfo, hfi, h.pool]
    cases waiting s <;> simp [Torrent.requestNext, PiecePool.pop, TPeer.updateSuccess]
  | failed e i rest hd hm shuffled hs =>
    left
    show (s.torrent.onFailed shuffled e i).torrent.peers.length = _ ∧ (s.torrent.onFailed shuffled e i).torrent.initiated = _
    simp only [Torrent.onFailed, h.pool]
    split
    · simp only [h.hasInfo]
      cases (PiecePool.insert (waiting s) i) <;> simp [Torrent.requestNext, PiecePool.pop, TPeer.updateFailed]
    · simp [TPeer.updateFailed]
  | collect p rest hd hm hi => rw [h.hasInfo] at hi; cases hi
  | found q rest hd e1 info' hi shuffles h5 hs =>
    right
    rw [h.hasInfo] at hi
    cases hi
    have hpeers : ∀ x ∈ (s.torrent.addPeer q).peers, Parses x.endpoint := by
      intro x hx
      rcases List.mem_append.mp hx with hx | hx
      · exact h.peers x hx
      · rw [List.mem_singleton.mp hx]
        have := h.mail _ (by rw [e1]; exact List.mem_cons_self ..)
        exact this
    show ((s.torrent.addPeer q).onReady info shuffles).torrent.peers.length = _ ∧
      (((s.torrent.addPeer q).onReady info shuffles).torrent.initiated = true ↔ _ ∨ 10 < ((s.torrent.addPeer q).onReady info shuffles).torrent.peers.length)
    have hlen : (s.torrent.addPeer q).peers.length = s.torrent.peers.length + 1 := by simp [Torrent.addPeer]
    have hin : (s.torrent.addPeer q).initiated = s.torrent.initiated := rfl
    cases hini : s.torrent.initiated with
    | true =>
      rw [Torrent.onReady, if_neg (by simp [hin, hini])]
      simp [hlen, hin, hini]
    | false =>
      by_cases h10 : (s.torrent.addPeer q).peers.length > 10
      · have hpool : (s.torrent.addPeer q).pool = some (List.range n) := by
          rw [← (h.idle hini).2.2.2]; exact h.pool
        obtain ⟨reqs, f1, f2, -⟩ := startRequests_spec info (s.torrent.addPeer q).peers (by simp [Torrent.addPeer]) hpeers shuffles (List.range n) hs
        rw [Torrent.onReady, if_pos (by simpa [hin, hini] using h10), hpool]
        simp only [f1, hlen, Bool.not_eq_true', List.isEmpty_eq_false_iff, true_and]
        constructor
        · intro _
          right
          omega
        · intro _ e
          rw [e] at f2
          have := congrArg List.length f2
          simp at this
          omega
      · rw [Torrent.onReady, if_neg (by simp [hin, hini]; omega)]
        simp only [hlen, hin, hini, true_and]
        constructor
        · intro e; cases e
        · rintro (e | e)
          · cases e
          · omega

theorem peers_move {w : World} {info : Info} {n : Nat} {s t : Slot} (h : Known w info n s.sys) (hn : 0 < n) (hm : Move w s t) :
    (t.sys.torrent.peers.length = s.sys.torrent.peers.length ∧ t.sys.torrent.initiated = s.sys.torrent.initiated) ∨
    (t.sys.torrent.peers.length = s.sys.torrent.peers.length + 1 ∧
      (t.sys.torrent.initiated = true ↔ s.sys.torrent.initiated = true ∨ 10 < t.sys.torrent.peers.length)) := by
  cases hm with
  | still _ fs e => rw [e]; exact .inl ⟨rfl, rfl⟩
  | act _ fs hst hw => exact peers_step (s := { s.sys with fs }) (known_fs h fs) hn hst
  | told _ fs p e => rw [e]; exact .inl ⟨rfl, rfl⟩
  | begin ws hp e => rw [e]; exact .inl ⟨rfl, rfl⟩
  | part x xs hp e => rw [e]; exact .inl ⟨rfl, rfl⟩
  | done r ready up hr e => rw [e]; exact .inl ⟨rfl, rfl⟩

theorem gets_step {w : World} {s t : Sys} (hr : Among w s) (hst : Step w s t) (hs : s.torrent.info = none) {info : Info}
    (ht : t.torrent.info = some info) : t.torrent.initiated = false := by
  rcases among_inv hr with h | ⟨_, _, h⟩
  · cases hst with
    | announce => exact h.initiated
    | take => exact h.initiated
    | finishOk => exact h.initiated
    | finishErr => exact h.initiated
    | finishPanic => exact h.initiated
    | write => exact h.initiated
    | success endpoint piece idx rest hd hm =>
      obtain ⟨p, e, -⟩ := h.mail _ (by rw [hm]; exact List.mem_cons_self ..)
      cases e
    | failed endpoint idx rest hd hm =>
      obtain ⟨p, e, -⟩ := h.mail _ (by rw [hm]; exact List.mem_cons_self ..)
      cases e
    | found p rest hd hm info' hi' => rw [hs] at hi'; cases hi'
    | collect p rest hd hm hi' tcp f peerId room collected fs' hh hc =>
      show (((s.torrent.addPeer p).onCollected w.build collected)).torrent.initiated = false
      rw [(onCollected_peers _ _ _).2]
      exact h.initiated
  · rw [h.hasInfo] at hs; cases hs

/-- A torrent that gets its metadata in a step has not started. -/
theorem gets_move {w : World} {s t : Slot} (hr : Among w s.sys) (hm : Move w s t) (hs : s.sys.torrent.info = none) {info : Info}
    (ht : t.sys.torrent.info = some info) : t.sys.torrent.initiated = false := by
  have absurdInfo : ∀ {x : Sys}, x.torrent = s.sys.torrent → x.torrent.info ≠ some info := by
    intro x e he
    rw [e, hs] at he
    cases he
  cases hm with
  | still _ fs e => exact absurd ht (absurdInfo (by rw [e]))
  | told _ fs p e => exact absurd ht (absurdInfo (by rw [e]))
  | begin ws hp e => exact absurd ht (absurdInfo (by rw [e]))
  | part x xs hp e => exact absurd ht (absurdInfo (by rw [e]))
  | done r ready up hr e => exact absurd ht (absurdInfo (by rw [e]; rfl))
  | act _ fs hst hw => exact gets_step (s := { s.sys with fs }) (.disk hr fs) hst hs ht

/-- C112: when a torrent has its metadata, it has started exactly if there are more than ten peers, and more than there were when it got the metadata. -/
theorem C112_started {w : World} {Q : Info → Prop} {fs : FS} {n : Nat} {run : Nat → App} (h : Run w Q fs n run) {k i m : Nat} {info : Info}
    (hg : GetsAt run k i m info) (hpos : 0 < wrappedCount info) {j : Nat} (hj : i < j) {t : Slot} (ht : (run j).proc.slots[k]? = some t) :
    t.sys.torrent.initiated = true ↔ 10 < t.sys.torrent.peers.length ∧ m < t.sys.torrent.peers.length := by
  obtain ⟨s, s', hs, hn, hs', hi, hm⟩ := hg
  obtain ⟨f, f0, fk, fm⟩ := run_slots (Run.shift h i) (k := k) (s := s) hs
  have hf1 : f 1 = s' := by
    have := fk 1
    rw [hs'] at this
    exact (Option.some.inj this).symm
  have hmem : ∀ d, f d ∈ (run (i + d)).proc.slots := fun d => List.mem_of_getElem? (fk d)
  obtain ⟨c, hknown1⟩ := among_known (C84_among (run_asteps h (i + 1)) (hf1 ▸ hmem 1)) hi
  have hc : c = wrappedCount info := by
    have h1 := (C84_exact (run_asteps h (i + 1)) (hf1 ▸ hmem 1) hi).length_eq
    have h2 := hknown1.perm.length_eq
    rw [h1, List.length_range, List.length_range] at h2
    exact h2.symm
  have hknown : ∀ d, Known w info c (f (d + 1)).sys := by
    intro d
    induction d with
    | zero => rw [hf1]; exact hknown1
    | succ d ih => exact known_move ih (fm (d + 1)) (run_asteps h (i + (d + 1 + 1))) (hmem (d + 1 + 1))
  have hinv : ∀ d, m ≤ (f (d + 1)).sys.torrent.peers.length ∧ ((f (d + 1)).sys.torrent.initiated = true ↔
      10 < (f (d + 1)).sys.torrent.peers.length ∧ m < (f (d + 1)).sys.torrent.peers.length) := by
    intro d
    induction d with
    | zero =>
      have h0 := fm 0
      rw [f0] at h0
      have := gets_move (C84_among (run_asteps h i) (List.mem_of_getElem? hs)) h0 hn (info := info) (by rw [Nat.zero_add, hf1]; exact hi)
      rw [this, hf1, hm]
      refine ⟨Nat.le_refl _, fun e => (by cases e), fun e => by omega⟩
    | succ d ih =>
      rcases peers_move (hknown d) (by omega) (fm (d + 1)) with ⟨e1, e2⟩ | ⟨e1, e2⟩
      · rw [e1, e2]; exact ih
      · refine ⟨by omega, ?_⟩
        rw [e2, ih.2, e1]
        omega
  obtain ⟨d, rfl⟩ := Nat.exists_eq_add_of_le hj
  have := fk (d + 1)
  rw [show i + (d + 1) = i.succ + d by omega, ht] at this
  rw [Option.some.inj this]
  exact (hinv d).2

theorem Fair.shift {run : Nat → App} {k : Nat} (h : Fair run k) (a : Nat) : Fair (fun j => run (a + j)) k := by
  have back : ∀ {i j : Nat}, a + i ≤ j → ∃ j', i ≤ j' ∧ a + j' = j := fun hj => ⟨_, Nat.le_sub_of_add_le (by omega), Nat.add_sub_cancel' (by omega)⟩
  refine ⟨fun i s hs h1 h2 h3 => ?_, fun i s hs h1 h2 => ?_, fun i s hs h1 => ?_, fun i s hs h1 h2 => ?_⟩
  · obtain ⟨j, s', e1, e2, e3⟩ := h.handles (a + i) s hs h1 h2 (fun j hj => by
      obtain ⟨j', hj', rfl⟩ := back hj
      exact h3 j' hj')
    obtain ⟨j', hj', rfl⟩ := back e1
    exact ⟨j', s', hj', e2, e3⟩
  · obtain ⟨j, s', e1, e2, e3⟩ := h.takes (a + i) s hs h1 h2
    obtain ⟨j', hj', rfl⟩ := back e1
    exact ⟨j', s', hj', e2, e3⟩
  · obtain ⟨j, s', e1, e2, e3⟩ := h.ends (a + i) s hs h1
    obtain ⟨j', hj', rfl⟩ := back e1
    exact ⟨j', s', hj', e2, e3⟩
  · obtain ⟨j, s', e1, e2, e3⟩ := h.writes (a + i) s hs h1 h2
    obtain ⟨j', hj', rfl⟩ := back e1
    exact ⟨j', s', hj', e2, e3⟩

/-- The actor of a torrent with metadata does not end. -/
theorem stays_up {w : World} {Q : Info → Prop} {fs : FS} {n : Nat} {run : Nat → App} (h : Run w Q fs n run) {k : Nat} {s : Slot} {info : Info}
    (hs : (run 0).proc.slots[k]? = some s) (hi : s.sys.torrent.info = some info) : StaysUp run k := by
  intro i t ht
  obtain ⟨c, hk⟩ := among_known (C84_among (run_asteps h i) (List.mem_of_getElem? ht)) (run_info h hs hi ht)
  exact hk.up

/-- C112: in every fair run, as long as its thread does not get stuck, a torrent that has got its metadata starts exactly if it is told of more than ten
peers in all, and of at least one after that from which it got the metadata. -/
theorem C112_starts {w : World} {Q : Info → Prop} {fs : FS} {n : Nat} {run : Nat → App} (h : Run w Q fs n run) {k : Nat} (hf : Fair run k)
    (hfree : ∀ i, (run i).Free k) {i m : Nat} {info : Info} (hg : GetsAt run k i m info) (hpos : 0 < wrappedCount info) :
    ∃ (l : List PeerEndpoint) (i' : Nat), ∀ j, i' ≤ j → ∃ t, (run j).proc.slots[k]? = some t ∧ t.sys.torrent.info = some info ∧ t.sys.told = l ∧
      (t.sys.torrent.initiated = true ↔ 10 < l.length ∧ m < l.length) := by
  obtain ⟨s, s', hs, hn, hs', hi, hm⟩ := id hg
  obtain ⟨l, a, hl⟩ := C112_heard (Run.shift h (i + 1)) (Fair.shift hf (i + 1)) (fun j => hfree (i + 1 + j)) (stays_up (Run.shift h (i + 1)) hs' hi) hs'
  refine ⟨l, i + 1 + a, fun j hj => ?_⟩
  obtain ⟨d, rfl⟩ : ∃ d, j = i + 1 + (a + d) := ⟨j - (i + 1 + a), by omega⟩
  obtain ⟨t, h1, h2, h3, h4⟩ := hl (a + d) (by omega)
  refine ⟨t, h1, run_info (Run.shift h (i + 1)) hs' hi h1, h2, ?_⟩
  rw [C112_started h hg hpos (by omega) h1]
  have := congrArg List.length h4
  rw [List.length_map, List.length_map] at this
  rw [this]

/-! ### From there to the files -/

/-- C112: in every fair run in which downloads fail finitely often, no worker of the torrent dies and its thread does not get stuck, a torrent that gets its
metadata, is told of more than ten peers in all and of at least one after that from which it got the metadata, completes its files, each
followed by what was beyond its listed length before, and they stay so. Missing: as for `C111_complete_partial`. -/
theorem C112_complete_partial {w : World} {info : Info} {d : Bytes} {fs : FS} {n : Nat} {run : Nat → App} (hd : Describes w.sha info d)
    (hlay : Placeable w.cwd fs (listedFiles info) d info.pieceLength) (hres : Unreserved info) (hpos : 0 < d.length)
    (h : Run w (Beside info) fs n run) {k : Nat} (hf : Fair run k) (hfree : ∀ i, (run i).Free k) {i m : Nat} (hg : GetsAt run k i m info)
    {i' : Nat} {s : Slot} (hs : (run i').proc.slots[k]? = some s) (h10 : 10 < s.sys.told.length) (hlast : m < s.sys.told.length) {B : Nat}
    (hB : ∀ i t, (run i).proc.slots[k]? = some t → downloadsFailed t.sys ≤ B) (hL : ∀ i t, (run i).proc.slots[k]? = some t → t.sys.lost = []) :
    ∃ i, ∀ j, i ≤ j → (∃ r, (info, r) ∈ (run j).proc.taken ∧ Collision w.sha r.piece (piece d info.pieceLength r.idx)) ∨
      FilesOver fs (run j).proc.fs w.cwd (listedFiles info) d ∧
        (FilesRight (run j).proc.fs w.cwd (listedFiles info) d ↔ NoneLonger fs w.cwd (listedFiles info)) := by
  have hcount : 0 < wrappedCount info := by
    obtain ⟨s, s', -, -, hs', hi, -⟩ := id hg
    have hmem := List.mem_of_getElem? hs'
    obtain ⟨c, hkn⟩ := among_known (C84_among (run_asteps h _) hmem) hi
    have h1 := (C84_exact (run_asteps h _) hmem hi).length_eq
    have h2 := hkn.perm.length_eq
    rw [h1, List.length_range, List.length_range] at h2
    rw [h2, known_count hkn hd hlay.small]
    exact Nat.lt_of_le_of_lt (Nat.zero_le _) (lt_count hlay.pieceLength hpos)
  obtain ⟨l, a, hl⟩ := C112_starts h hf hfree hg hcount
  obtain ⟨t, h1, h2, h3, h4⟩ := hl (a + i') (by omega)
  have hle : s.sys.told.length ≤ l.length := by
    obtain ⟨c, hc⟩ := told_later h (by omega : i' ≤ a + i') hs h1
    rw [← h3, hc, List.length_append]
    omega
  obtain ⟨b, hb⟩ := C111_complete_partial hd hlay hres hpos (Run.shift h (a + i')) (Fair.shift hf (a + i')) (fun j => hfree _) (k := k) (s := t) h1 h2
    (.inl (h4.mpr ⟨by omega, by omega⟩)) (fun i t ht => hB _ t ht) (fun i t ht => hL _ t ht)
  refine ⟨a + i' + b, fun j hj => ?_⟩
  obtain ⟨e, rfl⟩ := Nat.exists_eq_add_of_le hj
  have := hb (b + e) (by omega)
  simp only [← Nat.add_assoc] at this
  exact this

/-! ### From the trackers to the torrent -/

theorem tracked_step {w : World} {A A' : App} (h : AStep w A A') (hl : A.proc.log ≠ none) (hr : A'.proc.log ≠ none) :
    (A.trackers = A'.trackers ∨ TStep A.trackers A'.trackers) ∧ A.delivered ≤ A'.delivered := by
  cases h with
  | start hl' => exact absurd hl' hl
  | work => exact ⟨.inl rfl, Nat.le_refl _⟩
  | add _ _ _ _ thread _ _ T' ht => exact ⟨.inr ht, Nat.le_refl _⟩
  | track T' ht => exact ⟨.inr ‹_›, Nat.le_refl _⟩
  | deliver => exact ⟨.inl rfl, Nat.le_succ _⟩
  | stick k h => exact ⟨.inl rfl, Nat.le_refl _⟩
  | stop _ _ hr' => exact absurd hr' hr

theorem run_tracked {w : World} {Q : Info → Prop} {fs : FS} {n : Nat} {run : Nat → App} (h : Run w Q fs n run) {i j : Nat} (hij : i ≤ j) :
    TSteps (run i).trackers (run j).trackers ∧ (run i).delivered ≤ (run j).delivered := by
  obtain ⟨d, rfl⟩ := Nat.exists_eq_add_of_le hij
  clear hij
  induction d with
  | zero => exact ⟨.refl _, Nat.le_refl _⟩
  | succ d ih =>
    obtain ⟨h1, h2⟩ := tracked_step (h.step (i + d)) (h.on _) (h.on _)
    refine ⟨?_, Nat.le_trans ih.2 h2⟩
    rcases h1 with e | e
    · show TSteps _ (run (i + d + 1)).trackers
      rw [← e]; exact ih.1
    · exact .tail ih.1 e

theorem found_steps {T T' : Trackers} (h : TSteps T T') : ∃ more, T'.found = T.found ++ more := by
  induction h with
  | refl => exact ⟨[], by simp⟩
  | tail _ hs ih =>
    obtain ⟨a, ha⟩ := ih
    obtain ⟨b, hb⟩ := found_step hs
    exact ⟨a ++ b, by rw [hb, ha, List.append_assoc]⟩

/-- C112: whatever a tracker's answer tells a torrent gets to it. -/
theorem C112_delivered {w : World} {Q : Info → Prop} {fs : FS} {n : Nat} {run : Nat → App} (h : Run w Q fs n run) (hp : Prompt run) (i : Nat) :
    ∃ i', i ≤ i' ∧ ∀ j, i' ≤ j → ∀ (k : Nat) (t : Slot), (run j).proc.slots[k]? = some t → ∃ more, t.sys.told = messagesTo k (run i).trackers.found ++ more := by
  have key : ∀ d j, i ≤ j → (run i).trackers.found.length ≤ (run j).delivered + d → ∃ j', i ≤ j' ∧ (run i).trackers.found.length ≤ (run j').delivered := by
    intro d
    induction d with
    | zero => exact fun j hj hle => ⟨j, hj, hle⟩
    | succ d ih =>
      intro j hj hle
      by_cases hlt : (run i).trackers.found.length ≤ (run j).delivered
      · exact ⟨j, hj, hlt⟩
      · obtain ⟨more, hm⟩ := found_steps (run_tracked h hj).1
        obtain ⟨j', h1, h2⟩ := hp.delivers j (by
          have := congrArg List.length hm
          rw [List.length_append] at this
          omega)
        have := (run_tracked h h1).2
        exact ih j' (by omega) (by omega)
  obtain ⟨i', hi', hle⟩ := key _ i (Nat.le_refl _) (Nat.le_add_left _ _)
  refine ⟨i', hi', fun j hj k t ht => ?_⟩
  have hinv := ainv_steps (run_asteps h j) (ainv_init fs n)
  obtain ⟨more, hm⟩ := found_steps (run_tracked h (by omega : i ≤ j)).1
  have hdel := (run_tracked h hj).2
  refine ⟨messagesTo k (((run j).trackers.found.take (run j).delivered).drop (run i).trackers.found.length), ?_⟩
  have e : (run j).trackers.found.take (run j).delivered = (run i).trackers.found ++ ((run j).trackers.found.take (run j).delivered).drop (run i).trackers.found.length := by
    have h1 := List.take_append_drop (run i).trackers.found.length ((run j).trackers.found.take (run j).delivered)
    rw [List.take_take, Nat.min_eq_left (by omega)] at h1
    have h2 : (run j).trackers.found.take (run i).trackers.found.length = (run i).trackers.found := by rw [hm, List.take_left]
    rw [h2] at h1
    exact h1.symm
  rw [hinv.told k t ht, e]
  simp [messagesTo]

end RustBit
