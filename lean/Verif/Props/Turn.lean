/-
C128: the order in which pieces are asked for.
-/
import Verif.Spec.Turn
import Verif.Props.GoodPeer
import Verif.Props.FairTrackers

namespace RustBit
open Spec

theorem turn_still (s t : Sys) (h1 : t.handled = s.handled) (h2 : t.queue.length ≤ s.queue.length) (h3 : waiting t = waiting s) :
    waiting s ++ failedNow s t = askedNow s t ++ waiting t := by
  rw [failedNow, askedNow, h1, h3, List.drop_length, List.drop_of_length_le h2]
  simp

theorem turn_other (s t : Sys) {m : Mail} {l : List Request} (h1 : t.handled = s.handled ++ [m]) (hm : ∀ e i, m ≠ .failed e i)
    (h2 : t.queue = s.queue ++ l) (h3 : l.map Request.idx ++ waiting t = waiting s) :
    waiting s ++ failedNow s t = askedNow s t ++ waiting t := by
  have : failedNow s t = [] := by
    rw [failedNow, h1, List.drop_left]
    cases m with
    | failed e i => exact absurd rfl (hm e i)
    | _ => rfl
  rw [this, askedNow, h2, List.drop_left, h3, List.append_nil]

theorem turn_failed (s t : Sys) {e : Bytes} {i : Nat} {l : List Request} (h1 : t.handled = s.handled ++ [.failed e i])
    (h2 : t.queue = s.queue ++ l) (h3 : l.map Request.idx ++ waiting t = waiting s ++ [i]) :
    waiting s ++ failedNow s t = askedNow s t ++ waiting t := by
  rw [failedNow, askedNow, h1, h2, List.drop_left, List.drop_left, h3]
  rfl

/-- Asking for the next piece takes the first that waits. -/
theorem requestNext_turn (t : Torrent) (info : Info) (e : Bytes) (pool : PiecePool) :
    (t.requestNext info e pool).2.map Request.idx ++ (t.requestNext info e pool).1.pool.getD [] = pool := by
  cases pool with
  | nil => rfl
  | cons i pool => rfl

theorem turn_sys {w : World} {info : Info} {n : Nat} {s t : Sys} (h : Known w info n s) (hst : Step w s t) :
    waiting s ++ failedNow s t = askedNow s t ++ waiting t := by
  cases hst with
  | announce => exact turn_still _ _ rfl (Nat.le_refl _) rfl
  | take r queue hq hb => exact turn_still _ _ rfl (by simp [hq]) rfl
  | finishOk => exact turn_still _ _ rfl (Nat.le_refl _) rfl
  | finishErr => exact turn_still _ _ rfl (Nat.le_refl _) rfl
  | finishPanic => exact turn_still _ _ rfl (Nat.le_refl _) rfl
  | success e piece i rest hd hm =>
    obtain ⟨files, hfiles⟩ := getFiles_of_total h.total
    have := requestNext_turn { s.torrent with peers := TPeer.updateSuccess s.torrent.peers e } info e (waiting s)
    refine turn_other _ _ rfl (by intro _ _ h; cases h) rfl ?_
    simp only [waiting, Sys.after, Torrent.onSuccess, h.hasInfo, hfiles] at this ⊢
    rw [h.pool]
    exact this
  | failed e i rest hd hm shuffled hs =>
    have hne : shuffled ≠ [] := by
      intro h0
      have := hs.length_eq
      rw [h0, (peers_length (e := e)).1] at this
      exact h.nonempty (List.length_eq_zero_iff.mp this.symm)
    obtain ⟨p, -, e1, -, -⟩ := findSuitablePeer_ok (ε := Unit) hne
    have := requestNext_turn { s.torrent with info := some info, pool := some (PiecePool.insert (waiting s) i), peers := TPeer.updateFailed s.torrent.peers e } info
      p.endpoint (PiecePool.insert (waiting s) i)
    refine turn_failed _ _ rfl rfl ?_
    simp only [Sys.after, Torrent.onFailed, h.pool, e1, h.hasInfo]
    exact this
  | collect p rest hd hm hi => rw [h.hasInfo] at hi; cases hi
  | found p rest hd hm info' hi shuffles hn hs =>
    rw [h.hasInfo] at hi
    cases hi
    have hmail : MailGood w info (.found p) := h.mail _ (by rw [hm]; exact List.mem_cons_self ..)
    have hpeers : ∀ q ∈ (s.torrent.addPeer p).peers, Parses q.endpoint := by
      intro q hq
      rcases List.mem_append.mp hq with hq | hq
      · exact h.peers q hq
      · rw [List.mem_singleton.mp hq]; exact hmail
    have hne : (s.torrent.addPeer p).peers ≠ [] := by simp [Torrent.addPeer]
    obtain ⟨reqs, e1, e2, e3⟩ := startRequests_spec info (s.torrent.addPeer p).peers hne hpeers shuffles (waiting s) hs
    have hpool : (s.torrent.addPeer p).pool = some (waiting s) := h.pool
    refine turn_other _ _ rfl (by intro _ _ h; cases h) rfl ?_
    rw [Torrent.onReady]
    split
    · simp only [hpool, e1, Sys.after]
      rw [e2]
      exact List.take_append_drop _ _
    · rfl
  | write r ready hu hr res fs hw => exact turn_still _ _ rfl (Nat.le_refl _) rfl

theorem known_on {w : World} {info : Info} {n : Nat} {s : Sys} (h : Known w info n s) (fs : FS) : Known w info n { s with fs } :=
  { h with }

theorem info_move {w : World} {info : Info} {n : Nat} {s s' : Slot} (h : Known w info n s.sys) (hm : Move w s s') :
    s'.sys.torrent.info = some info := by
  cases hm with
  | still hp fs e => rw [e]; exact h.hasInfo
  | act hp fs hst hw => exact (known_steps (known_on h fs) (.single hst)).hasInfo
  | told hp fs p e => rw [e]; exact h.hasInfo
  | begin ws hp e => rw [e]; exact h.hasInfo
  | part x xs hp e => rw [e]; exact h.hasInfo
  | done r ready up hr e => rw [e]; exact h.hasInfo

theorem turn_move {w : World} {info : Info} {n : Nat} {s s' : Slot} (h : Known w info n s.sys) (hm : Move w s s') :
    waiting s.sys ++ failedNow s.sys s'.sys = askedNow s.sys s'.sys ++ waiting s'.sys := by
  cases hm with
  | still hp fs e => rw [e]; exact turn_still _ _ rfl (Nat.le_refl _) rfl
  | act hp fs hst hw => exact turn_sys (s := { s.sys with fs }) (known_on h fs) hst
  | told hp fs p e => rw [e]; exact turn_still _ _ rfl (Nat.le_refl _) rfl
  | begin ws hp e => rw [e]; exact turn_still _ _ rfl (Nat.le_refl _) rfl
  | part x xs hp e => rw [e]; exact turn_still _ _ rfl (Nat.le_refl _) rfl
  | done r ready up hr e => rw [e]; exact turn_still _ _ rfl (Nat.le_refl _) rfl

theorem known_run {w : World} {Q : Info → Prop} {fs : FS} {n : Nat} {run : Nat → App} (h : Run w Q fs n run) {k : Nat} {info : Info} {f : Nat → Slot}
    (fk : ∀ i, (run i).proc.slots[k]? = some (f i)) (fm : ∀ i, Move w (f i) (f (i + 1))) (hi : (f 0).sys.torrent.info = some info) (i : Nat) :
    ∃ c, Known w info c (f i).sys := by
  induction i with
  | zero => exact among_known (C84_among (run_asteps h 0) (List.mem_of_getElem? (fk 0))) hi
  | succ i ih =>
    obtain ⟨c, hc⟩ := ih
    exact among_known (C84_among (run_asteps h (i + 1)) (List.mem_of_getElem? (fk (i + 1)))) (info_move hc (fm i))

/-- C128: from any state in which a torrent has its metadata, in every run of the program, the pieces are asked for in the order in which they came to wait: first those that
wait now, then those that fail, in the order in which the torrent learns of it. -/
theorem C128_queue {w : World} {Q : Info → Prop} {fs : FS} {n : Nat} {run : Nat → App} (h : Run w Q fs n run) {k : Nat} {s : Slot} {info : Info}
    (hk : (run 0).proc.slots[k]? = some s) (hi : s.sys.torrent.info = some info) {i : Nat} {t : Slot} (ht : (run i).proc.slots[k]? = some t) :
    waiting s.sys ++ failedUpTo run k i = askedUpTo run k i ++ waiting t.sys := by
  obtain ⟨f, f0, fk, fm⟩ := run_slots h hk
  have : ∀ i, waiting s.sys ++ failedUpTo run k i = askedUpTo run k i ++ waiting (f i).sys := by
    intro i
    induction i with
    | zero => rw [f0, failedUpTo, askedUpTo, List.append_nil]; rfl
    | succ i ih =>
      obtain ⟨c, hc⟩ := known_run h fk fm (by rw [f0]; exact hi) i
      rw [failedUpTo, askedUpTo, fk i, fk (i + 1)]
      simp only []
      rw [← List.append_assoc, ih, List.append_assoc, turn_move hc (fm i), List.append_assoc]
  have e := fk i
  rw [ht] at e
  cases e
  exact this i

/-- C128: a piece that waits is asked for after exactly those that wait before it, each of them once: as long as it has not been asked for, nothing else has been. -/
theorem C128_turn {w : World} {Q : Info → Prop} {fs : FS} {n : Nat} {run : Nat → App} (h : Run w Q fs n run) {k : Nat} {s : Slot} {info : Info}
    (hk : (run 0).proc.slots[k]? = some s) (hi : s.sys.torrent.info = some info) {before after : List Nat} {p : Nat}
    (hw : waiting s.sys = before ++ p :: after) (i : Nat) :
    (before ++ [p]).Nodup ∧ (askedUpTo run k i <+: before ∨ before ++ [p] <+: askedUpTo run k i) := by
  obtain ⟨f, f0, fk, fm⟩ := run_slots h hk
  constructor
  · obtain ⟨c, hc⟩ := among_known (C84_among (run_asteps h 0) (List.mem_of_getElem? hk)) hi
    have := hc.perm.nodup_iff.mpr List.nodup_range
    rw [List.append_assoc, List.append_assoc, hw] at this
    have := (List.nodup_append.mp this).1
    rw [List.append_cons] at this
    exact (List.nodup_append.mp this).1
  · have e := C128_queue h hk hi (fk i)
    rw [hw, List.append_cons, List.append_assoc] at e
    have h1 : before ++ [p] <+: askedUpTo run k i ++ waiting (f i).sys := ⟨_, e⟩
    have h2 : askedUpTo run k i <+: askedUpTo run k i ++ waiting (f i).sys := ⟨_, rfl⟩
    by_cases hl : (before ++ [p]).length ≤ (askedUpTo run k i).length
    · exact .inr (List.prefix_of_prefix_length_le h1 h2 hl)
    · refine .inl (List.prefix_of_prefix_length_le h2 (List.IsPrefix.trans ⟨[p], rfl⟩ h1) ?_)
      simp at hl
      omega

/-- C128: from the start on, the pieces are first asked for in the order of their numbers, and only after all of them those that have failed. -/
theorem C128_ascending {w : World} {Q : Info → Prop} {fs : FS} {n : Nat} {run : Nat → App} (h : Run w Q fs n run) {k : Nat} {s : Slot} {info : Info}
    (hk : (run 0).proc.slots[k]? = some s) (hi : s.sys.torrent.info = some info) (hn : s.sys.torrent.initiated = false) {c : Nat}
    (hc : (pieceTotal w.build info : Res Unit Nat) = .ok c) {i : Nat} {t : Slot} (ht : (run i).proc.slots[k]? = some t) :
    askedUpTo run k i ++ waiting t.sys = List.range c ++ failedUpTo run k i := by
  obtain ⟨c', hc'⟩ := among_known (C84_among (run_asteps h 0) (List.mem_of_getElem? hk)) hi
  have e := hc'.total
  rw [hc] at e
  cases e
  rw [← C128_queue h hk hi ht, (hc'.idle hn).2.2.2]

/-- C128: the pieces being those of the torrent if the metadata describes it. -/
theorem C128_described {w : World} {Q : Info → Prop} {fs : FS} {n : Nat} {run : Nat → App} (h : Run w Q fs n run) {k : Nat} {s : Slot} {info : Info}
    {d : Bytes} (hd : Describes w.sha info d) (h64 : d.length < 2 ^ 64) (hpos : 0 < d.length)
    (hk : (run 0).proc.slots[k]? = some s) (hi : s.sys.torrent.info = some info) (hn : s.sys.torrent.initiated = false)
    {i : Nat} {t : Slot} (ht : (run i).proc.slots[k]? = some t) :
    askedUpTo run k i ++ waiting t.sys = List.range (pieceCount d.length info.pieceLength) ++ failedUpTo run k i :=
  C128_ascending h hk hi hn (pieceTotal_of hd h64 hpos) ht

theorem fresh_quiet {w : World} {s t : Sys} (h : Fresh s) (hst : Step w s t) :
    askedNow s t = [] ∧ failedNow s t = [] ∧ t.torrent.initiated = false := by
  have quiet : ∀ t : Sys, t.queue = s.queue → t.handled = s.handled → t.torrent.initiated = s.torrent.initiated →
      askedNow s t = [] ∧ failedNow s t = [] ∧ t.torrent.initiated = false := by
    intro t h1 h2 h3
    rw [askedNow, failedNow, h1, h2, h3, h.initiated]
    simp
  cases hst with
  | announce => exact quiet _ rfl rfl rfl
  | take r queue hq hb => rw [h.queue] at hq; cases hq
  | finishOk pre post r hb => rw [h.busy] at hb; simp at hb
  | finishErr pre post r hb => rw [h.busy] at hb; simp at hb
  | finishPanic pre post r hb => rw [h.busy] at hb; simp at hb
  | success e piece i rest hd hm =>
    obtain ⟨p, hp, -⟩ := h.mail (.success e piece i) (by rw [hm]; exact List.mem_cons_self ..)
    cases hp
  | failed e i rest hd hm =>
    obtain ⟨p, hp, -⟩ := h.mail (.failed e i) (by rw [hm]; exact List.mem_cons_self ..)
    cases hp
  | collect p rest hd hm hi tcp f peerId room collected fs hh hc =>
    have e : ((s.torrent.addPeer p).onCollected w.build collected).requests = [] ∧
        ((s.torrent.addPeer p).onCollected w.build collected).torrent.initiated = s.torrent.initiated := by
      unfold Torrent.onCollected
      split
      · split <;> exact ⟨rfl, rfl⟩
      all_goals exact ⟨rfl, rfl⟩
    refine ⟨?_, ?_, e.2.trans h.initiated⟩
    · show ((s.queue ++ ((s.torrent.addPeer p).onCollected w.build collected).requests).drop s.queue.length).map Request.idx = []
      rw [e.1]
      simp
    · show ((s.handled ++ [Mail.found p]).drop s.handled.length).filterMap _ = []
      rw [List.drop_left]
      rfl
  | found p rest hd hm info hi => rw [h.info] at hi; cases hi
  | write r ready hu hr => rw [h.ready] at hr; cases hr

theorem fresh_quiet_move {w : World} {s s' : Slot} (h : Fresh s.sys) (hm : Move w s s') :
    askedNow s.sys s'.sys = [] ∧ failedNow s.sys s'.sys = [] ∧ s'.sys.torrent.initiated = false := by
  have quiet : ∀ t : Sys, t.queue = s.sys.queue → t.handled = s.sys.handled → t.torrent.initiated = s.sys.torrent.initiated →
      askedNow s.sys t = [] ∧ failedNow s.sys t = [] ∧ t.torrent.initiated = false := by
    intro t h1 h2 h3
    rw [askedNow, failedNow, h1, h2, h3, h.initiated]
    simp
  cases hm with
  | still hp fs e => rw [e]; exact quiet _ rfl rfl rfl
  | act hp fs hst hw => exact fresh_quiet (s := { s.sys with fs }) (fresh_fs h fs) hst
  | told hp fs p e => rw [e]; exact quiet _ rfl rfl rfl
  | begin ws hp e => rw [e]; exact quiet _ rfl rfl rfl
  | part x xs hp e => rw [e]; exact quiet _ rfl rfl rfl
  | done r ready up hr e => rw [e]; exact quiet _ rfl rfl rfl

/-- C128: also from before a torrent has its metadata: nothing is asked for until it has, and then the pieces in the order of their numbers. -/
theorem C128_before {w : World} {Q : Info → Prop} {fs : FS} {n : Nat} {run : Nat → App} (h : Run w Q fs n run) {k : Nat} {s : Slot}
    (hk : (run 0).proc.slots[k]? = some s) (hi : s.sys.torrent.info = none) {i : Nat} {t : Slot} (ht : (run i).proc.slots[k]? = some t) :
    (t.sys.torrent.info = none → askedUpTo run k i = [] ∧ failedUpTo run k i = []) ∧
    (∀ info c, t.sys.torrent.info = some info → (pieceTotal w.build info : Res Unit Nat) = .ok c →
      askedUpTo run k i ++ waiting t.sys = List.range c ++ failedUpTo run k i) := by
  obtain ⟨f, f0, fk, fm⟩ := run_slots h hk
  have am : ∀ i, Among w (f i).sys := fun i => C84_among (run_asteps h i) (List.mem_of_getElem? (fk i))
  have : ∀ i, (Fresh (f i).sys ∧ askedUpTo run k i = [] ∧ failedUpTo run k i = []) ∨
      ∃ info c, Known w info c (f i).sys ∧ askedUpTo run k i ++ waiting (f i).sys = List.range c ++ failedUpTo run k i := by
    intro i
    induction i with
    | zero =>
      rcases among_inv (am 0) with hf | ⟨info, c, hc⟩
      · exact .inl ⟨hf, rfl, rfl⟩
      · have := hc.hasInfo
        rw [f0, hi] at this
        cases this
    | succ i ih =>
      rw [failedUpTo, askedUpTo, fk i, fk (i + 1)]
      simp only []
      rcases ih with ⟨hf, e1, e2⟩ | ⟨info, c, hc, e⟩
      · obtain ⟨q1, q2, q3⟩ := fresh_quiet_move hf (fm i)
        rw [e1, e2, q1, q2]
        rcases among_inv (am (i + 1)) with hf | ⟨info, c, hc⟩
        · exact .inl ⟨hf, rfl, rfl⟩
        · exact .inr ⟨info, c, hc, by rw [(hc.idle q3).2.2.2]; simp⟩
      · obtain ⟨c', hc'⟩ := among_known (am (i + 1)) (info_move hc (fm i))
        have ec := hc.total
        rw [hc'.total] at ec
        cases ec
        exact .inr ⟨info, _, hc', by rw [List.append_assoc, ← turn_move hc (fm i), ← List.append_assoc, e, List.append_assoc]⟩
  have e := fk i
  rw [ht] at e
  cases e
  rcases this i with ⟨hf, e1, e2⟩ | ⟨info, c, hc, e⟩
  · exact ⟨fun _ => ⟨e1, e2⟩, fun info c h' => by (rw [hf.info] at h'; cases h')⟩
  · refine ⟨fun h' => by (rw [hc.hasInfo] at h'; cases h'), fun info' c' h' hc' => ?_⟩
    rw [hc.hasInfo] at h'
    cases h'
    rw [hc.total] at hc'
    cases hc'
    exact e

/-- C128: in any stretch of a run in which as many requests are made as there are pieces, every piece that waited at its beginning is asked for. -/
theorem C128_bound {w : World} {Q : Info → Prop} {fs : FS} {n : Nat} {run : Nat → App} (h : Run w Q fs n run) {k : Nat} {s : Slot} {info : Info}
    (hk : (run 0).proc.slots[k]? = some s) (hi : s.sys.torrent.info = some info) {c : Nat} (hc : (pieceTotal w.build info : Res Unit Nat) = .ok c)
    {p : Nat} (hp : p ∈ waiting s.sys) {i : Nat} (hl : c ≤ (askedUpTo run k i).length) : p ∈ askedUpTo run k i := by
  obtain ⟨before, after, hw⟩ := List.append_of_mem hp
  obtain ⟨-, h1 | h1⟩ := C128_turn h hk hi hw i
  · obtain ⟨c', hc'⟩ := among_known (C84_among (run_asteps h 0) (List.mem_of_getElem? hk)) hi
    have e := hc'.total
    rw [hc] at e
    cases e
    have h2 := hc'.perm.length_eq
    have h3 := h1.length_le
    rw [hw] at h2
    simp at h2
    omega
  · exact h1.subset (by simp)

/-- C128: in every fair run in which downloads fail finitely often, no worker of the torrent dies and its thread does not get stuck, a torrent that starts ends up having
asked for every piece once, in the order of their numbers, and then once for every failure, in their order; and that is all it ever asks for. -/
theorem C128_all {w : World} {Q : Info → Prop} {fs : FS} {n : Nat} {run : Nat → App} (h : Run w Q fs n run) {k : Nat} (hf : Fair run k)
    (hfree : ∀ i, (run i).Free k) {s : Slot} {info : Info} (hk : (run 0).proc.slots[k]? = some s) (hi : s.sys.torrent.info = some info)
    (hn : s.sys.torrent.initiated = false) (hs : Starts s.sys) {B : Nat} (hB : ∀ i t, (run i).proc.slots[k]? = some t → downloadsFailed t.sys ≤ B)
    (hL : ∀ i t, (run i).proc.slots[k]? = some t → t.sys.lost = []) {c : Nat} (hc : (pieceTotal w.build info : Res Unit Nat) = .ok c) :
    ∃ i, ∀ j, i ≤ j → askedUpTo run k j = List.range c ++ failedUpTo run k j := by
  obtain ⟨i, hrest⟩ := C111_rest h hf hfree hk hi hB
  obtain ⟨f, f0, fk, fm⟩ := run_slots h hk
  refine ⟨i, fun j hj => ?_⟩
  obtain ⟨t, ht, -, -, -, -, hp⟩ := hrest j hj
  have hl := hL j t ht
  have hp := (hp hs (by rw [hl]; decide)).length_eq
  have et := fk j
  rw [ht] at et
  cases et
  obtain ⟨c', hc'⟩ := known_run h fk fm (by rw [f0]; exact hi) j
  have h2 := (C84_exact (run_asteps h j) (List.mem_of_getElem? ht) hc'.hasInfo).length_eq
  have hw : waiting (f j).sys = [] := by
    simp only [List.length_append] at hp h2
    exact List.length_eq_zero_iff.mp (by omega)
  rw [← C128_ascending h hk hi hn hc ht, hw, List.append_nil]

/-- C128: over any stretch of a run, every request is answered by exactly one success or one failure, or is still on its way, or was lost with its worker: what was on its way
at the beginning and what was asked for since is, each piece as often, what is on its way at the end, what has come, what was lost and what failed. -/
theorem C128_answered {w : World} {Q : Info → Prop} {fs : FS} {n : Nat} {run : Nat → App} (h : Run w Q fs n run) {k : Nat} {s : Slot} {info : Info}
    (hk : (run 0).proc.slots[k]? = some s) (hi : s.sys.torrent.info = some info) {i : Nat} {t : Slot} (ht : (run i).proc.slots[k]? = some t) :
    (flight s.sys ++ handed s.sys ++ s.sys.lost ++ askedUpTo run k i).Perm (flight t.sys ++ handed t.sys ++ t.sys.lost ++ failedUpTo run k i) := by
  obtain ⟨f, f0, fk, fm⟩ := run_slots h hk
  have et := fk i
  rw [ht] at et
  cases et
  obtain ⟨c, hc⟩ := known_run h fk fm (by rw [f0]; exact hi) 0
  obtain ⟨c', hc'⟩ := known_run h fk fm (by rw [f0]; exact hi) i
  rw [f0] at hc
  have e := hc.total
  rw [hc'.total] at e
  cases e
  have hq := C128_queue h hk hi ht
  rw [List.perm_iff_count]
  intro p
  have h1 := List.perm_iff_count.mp hc.perm p
  have h2 := List.perm_iff_count.mp hc'.perm p
  have h3 := congrArg (List.count p) hq
  simp only [List.count_append] at h1 h2 h3 ⊢
  omega

/-! ### Non-vacuity -/

/-- C128_queue, C128_turn, C128_ascending, C128_answered: in every world there is such a run of a torrent of two pieces, of which neither has been asked for. -/
example (w : World) (hsha : ∀ b, (w.sha b).length = 20) : ∃ run s, Run w (Beside (threeBytes w.sha)) (cachedFs w.cwd (List.replicate 20 17) (threeBytes w.sha)) 1 run ∧
    (run 0).proc.slots[0]? = some s ∧ s.sys.torrent.info = some (threeBytes w.sha) ∧ s.sys.torrent.initiated = false ∧ waiting s.sys = [0] ++ 1 :: [] ∧
    (pieceTotal w.build (threeBytes w.sha) : Res Unit Nat) = .ok 2 := by
  obtain ⟨A, s, h1, h2, h3, h4, h5, h6, h7, h8, h9, h10, -, hn⟩ :=
    about_to_start_told w (threeBytes_describes hsha) (by decide) (by decide) (threeBytes_typed _) (Q := Beside (threeBytes w.sha)) (.inl rfl)
  obtain ⟨run, r1, r2, r3, r4, r5⟩ := C111_served_runs hsha (threeBytes_describes hsha)
    ⟨by decide, by show pieceCount 3 2 ≤ 2 ^ 32; decide, by show 2 * pieceCount 3 2 < 2 ^ 64; decide⟩ h1 h2 h3 h4 h5
  have ht : (pieceTotal w.build (threeBytes w.sha) : Res Unit Nat) = .ok 2 := threeBytes_total _ _
  obtain ⟨c, hc⟩ := among_known (C84_among h1 (List.mem_of_getElem? h4)) h5
  have e := hc.total
  rw [ht] at e
  cases e
  exact ⟨run, s, r1, by rw [r2]; exact h4, h5, hn, (hc.idle hn).2.2.2, ht⟩

/-- C128_before: in every world, on an empty disk, there is such a run in which the torrent gets its metadata in the first step. -/
example (w : World) (hsha : ∀ b, (w.sha b).length = 20) : ∃ run s t info, Run w (Beside (threeBytes w.sha)) (fun _ => none) 1 run ∧ (run 0).proc.slots[0]? = some s ∧
    s.sys.torrent.info = none ∧ (run 1).proc.slots[0]? = some t ∧ t.sys.torrent.info = some info := by
  obtain ⟨L, hL, hall⟩ := three_request w hsha
  obtain ⟨run, h1, -, -, -, h5, -⟩ := hall 0 (by omega)
  obtain ⟨s0, s1, hs0, hn0, hs1, hi1, -⟩ := id h5
  exact ⟨run, s0, s1, _, h1, hs0, hn0, hs1, hi1⟩

/-- C128_all, C128_bound: in every world there is such a run, in which from some point on both pieces of a torrent have been asked for, and nothing else. -/
example (w : World) (hsha : ∀ b, (w.sha b).length = 20) : ∃ run s i, Run w (Beside (threeBytes w.sha)) (cachedFs w.cwd (List.replicate 20 17) (threeBytes w.sha)) 1 run ∧
    Fair run 0 ∧ (∀ i, (run i).Free 0) ∧ (run 0).proc.slots[0]? = some s ∧ s.sys.torrent.info = some (threeBytes w.sha) ∧ s.sys.torrent.initiated = false ∧
    Starts s.sys ∧ (∀ i t, (run i).proc.slots[0]? = some t → downloadsFailed t.sys ≤ 0) ∧ (∀ i t, (run i).proc.slots[0]? = some t → t.sys.lost = []) ∧
    1 ∈ waiting s.sys ∧ 2 ≤ (askedUpTo run 0 i).length ∧ [0, 1] <+: askedUpTo run 0 i := by
  obtain ⟨A, s, h1, h2, h3, h4, h5, h6, h7, h8, h9, h10, -, hn⟩ :=
    about_to_start_told w (threeBytes_describes hsha) (by decide) (by decide) (threeBytes_typed _) (Q := Beside (threeBytes w.sha)) (.inl rfl)
  obtain ⟨run, r1, r2, r3, r4, r5⟩ := C111_served_runs hsha (threeBytes_describes hsha)
    ⟨by decide, by show pieceCount 3 2 ≤ 2 ^ 32; decide, by show 2 * pieceCount 3 2 < 2 ^ 64; decide⟩ h1 h2 h3 h4 h5
  have hk : (run 0).proc.slots[0]? = some s := by rw [r2]; exact h4
  have hB : ∀ i t, (run i).proc.slots[0]? = some t → downloadsFailed t.sys ≤ 0 := fun i t ht => Nat.le_of_eq ((r5 i t ht).1.trans h10)
  have hL : ∀ i t, (run i).proc.slots[0]? = some t → t.sys.lost = [] := fun i t ht => (r5 i t ht).2.trans h7
  obtain ⟨i, hi⟩ := C128_all r1 r3 r4 hk h5 hn h6 hB hL (threeBytes_total _ _)
  obtain ⟨c, hc⟩ := among_known (C84_among h1 (List.mem_of_getElem? h4)) h5
  have e := hc.total
  rw [threeBytes_total] at e
  cases e
  have e := hi i (Nat.le_refl _)
  exact ⟨run, s, i, r1, r3, r4, hk, h5, hn, h6, hB, hL, by rw [(hc.idle hn).2.2.2]; decide, by rw [e]; simp, ⟨_, e.symm⟩⟩

end RustBit
