/-
C104: which peers a torrent asks.
-/
import Verif.Spec.Peers
import Verif.Props.Torrents

namespace RustBit
open Spec

/-! ### Counting -/

theorem failures_append (e : Bytes) (a b : List Mail) : failures e (a ++ b) = failures e a + failures e b := List.countP_append

theorem failures_cons_le (e : Bytes) (m : Mail) (log : List Mail) : failures e log ≤ failures e (m :: log) := by
  rw [failures, failures, List.countP_cons]
  omega

theorem failuresSince_cons (e : Bytes) (m : Mail) (log : List Mail) : failuresSince e (m :: log) = (match failuresSince e log with
    | some n => some n
    | none => match m with
      | .found p => if p.endpoint = e then some (failures e log) else none
      | _ => none) := by
  cases m <;> rfl

theorem failuresSince_le {e : Bytes} {log : List Mail} {n : Nat} (h : failuresSince e log = some n) : n ≤ failures e log := by
  induction log with
  | nil => cases h
  | cons m log ih =>
    rw [failuresSince_cons] at h
    refine Nat.le_trans ?_ (failures_cons_le e m log)
    cases hl : failuresSince e log with
    | some k =>
      rw [hl] at h
      cases h
      exact ih hl
    | none =>
      rw [hl] at h
      cases m with
      | found p =>
        simp only [] at h
        split at h
        · cases h; exact Nat.le_refl _
        · cases h
      | success => cases h
      | failed => cases h

theorem failuresSince_entry {e : Bytes} {log : List Mail} {n : Nat} (h : failuresSince e log = some n) : ∃ p ∈ peersAfter log, p.endpoint = e ∧ p.failed = n := by
  induction log with
  | nil => cases h
  | cons m log ih =>
    rw [failuresSince_cons] at h
    have more : ∀ p, p ∈ peersAfter log → p ∈ peersAfter (m :: log) := by
      intro p hp
      cases m with
      | found q => exact List.mem_cons_of_mem _ hp
      | success => exact hp
      | failed => exact hp
    cases hl : failuresSince e log with
    | some k =>
      rw [hl] at h
      cases h
      obtain ⟨p, hp, x⟩ := ih hl
      exact ⟨p, more p hp, x⟩
    | none =>
      rw [hl] at h
      cases m with
      | found p =>
        simp only [] at h
        split at h
        · rename_i he
          cases h
          exact ⟨_, List.mem_cons_self, he, by rw [he]⟩
        · cases h
      | success => cases h
      | failed => cases h

theorem entry_failuresSince {p : TPeer} {log : List Mail} (h : p ∈ peersAfter log) : ∃ n, failuresSince p.endpoint log = some n ∧ n ≤ p.failed := by
  induction log with
  | nil => cases h
  | cons m log ih =>
    have old : p ∈ peersAfter log → ∃ n, failuresSince p.endpoint (m :: log) = some n ∧ n ≤ p.failed := by
      intro hp
      obtain ⟨n, h1, h2⟩ := ih hp
      exact ⟨n, by rw [failuresSince_cons, h1], h2⟩
    cases m with
    | found q =>
      rcases List.mem_cons.mp h with rfl | h
      · rw [failuresSince_cons]
        cases hl : failuresSince q.endpoint log with
        | some k => exact ⟨k, rfl, failuresSince_le hl⟩
        | none => exact ⟨_, if_pos rfl, Nat.le_refl _⟩
      · exact old h
    | success => exact old h
    | failed => exact old h

/-- What a shuffle of the list may bring about. -/
theorem choosable_iff {ε : Type} {peers : List TPeer} {e : Bytes} : (∃ shuffled : List TPeer, shuffled.Perm peers ∧ (TPeer.findSuitablePeer shuffled : Res ε Bytes) = .ok e) ↔
    ∃ p ∈ peers, p.endpoint = e ∧ (p.failed < 2 ∨ (∀ q ∈ peers, 2 ≤ q.failed) ∧ (p.failed < 4 ∨ ∀ q ∈ peers, 4 ≤ q.failed)) := by
  constructor
  · rintro ⟨shuffled, hs, h⟩
    obtain ⟨p, hp, he, h2, h4⟩ := (C46_choice (ε := ε) peers shuffled hs).1 e h
    refine ⟨p, hp, he, ?_⟩
    by_cases e2 : ∃ q ∈ peers, q.failed < 2
    · exact .inl (h2 e2)
    · refine .inr ⟨fun q hq => Nat.not_lt.mp fun hlt => e2 ⟨q, hq, hlt⟩, ?_⟩
      by_cases e4 : ∃ q ∈ peers, q.failed < 4
      · exact .inl (h4 e4)
      · exact .inr fun q hq => Nat.not_lt.mp fun hlt => e4 ⟨q, hq, hlt⟩
  · rintro ⟨p, hp, rfl, h⟩
    refine ⟨p :: peers.erase p, (List.perm_cons_erase hp).symm, ?_⟩
    unfold TPeer.findSuitablePeer
    rcases h with h | ⟨h2, h⟩
    · rw [List.find?_cons_of_pos (by simpa using h)]
    · have n2 : (p :: peers.erase p).find? (fun p => p.failed < 2) = none := by
        rw [List.find?_eq_none]
        intro q hq
        have := h2 q ((List.perm_cons_erase hp).symm.mem_iff.mp hq)
        simp; omega
      rw [n2]
      simp only []
      rcases h with h | h4
      · rw [List.find?_cons_of_pos (by simpa using h)]
      · have n4 : (p :: peers.erase p).find? (fun p => p.failed < 4) = none := by
          rw [List.find?_eq_none]
          intro q hq
          have := h4 q ((List.perm_cons_erase hp).symm.mem_iff.mp hq)
          simp; omega
        rw [n4]

theorem eligible_entry {log : List Mail} {e : Bytes} : Eligible log e ↔
    ∃ p ∈ peersAfter log, p.endpoint = e ∧ (p.failed < 2 ∨ (∀ q ∈ peersAfter log, 2 ≤ q.failed) ∧ (p.failed < 4 ∨ ∀ q ∈ peersAfter log, 4 ≤ q.failed)) := by
  have all : ∀ k, (∀ e m, failuresSince e log = some m → k ≤ m) ↔ ∀ q ∈ peersAfter log, k ≤ q.failed := by
    intro k
    constructor
    · intro h q hq
      obtain ⟨n, h1, h2⟩ := entry_failuresSince hq
      exact Nat.le_trans (h _ _ h1) h2
    · intro h e m hm
      obtain ⟨p, hp, -, rfl⟩ := failuresSince_entry hm
      exact h p hp
  rw [Eligible, all, all]
  constructor
  · rintro ⟨n, hn, h⟩
    obtain ⟨p, hp, he, rfl⟩ := failuresSince_entry hn
    exact ⟨p, hp, he, h⟩
  · rintro ⟨p, hp, rfl, h⟩
    obtain ⟨n, h1, h2⟩ := entry_failuresSince hp
    refine ⟨n, h1, ?_⟩
    rcases h with h | ⟨h, h' | h'⟩
    · exact .inl (by omega)
    · exact .inr ⟨h, .inl (by omega)⟩
    · exact .inr ⟨h, .inr h'⟩

/-! ### C104 -/

/-- C104, exactly: the peers that a torrent may choose are those that failed less than twice since they were named last; if there are none, less than four times; if
there are none, all. -/
theorem C104_exact {ε : Type} {w : World} {s : Sys} (hr : Among w s) (e : Bytes) :
    (∃ shuffled : List TPeer, shuffled.Perm s.torrent.peers ∧ (TPeer.findSuitablePeer shuffled : Res ε Bytes) = .ok e) ↔ Eligible s.handled e := by
  rw [choosable_iff, eligible_entry, C47_counters hr]

/-- C104: what is requested when a message is handled is requested from the peer that has just delivered a piece, or from one of those. -/
theorem C104_requests {w : World} {s t : Sys} {m : Mail} (hr : Among w s) (hst : Step w s t) (hh : t.handled = s.handled ++ [m]) :
    ∃ more, t.queue = s.queue ++ more ∧ ∀ r ∈ more, (∃ piece i, m = .success r.endpoint piece i) ∨ Eligible t.handled r.endpoint := by
  have hne : s.handled ≠ s.handled ++ [m] := by
    intro e
    have := congrArg List.length e
    simp at this
  have hrt : Among w t := .step hr hst
  cases hst with
  | announce => exact absurd hh hne
  | take => exact absurd hh hne
  | finishOk => exact absurd hh hne
  | finishErr => exact absurd hh hne
  | finishPanic => exact absurd hh hne
  | write => exact absurd hh hne
  | success en pc i rest hd hm =>
    obtain rfl : Mail.success en pc i = m := by
      have := List.append_cancel_left hh
      simpa using this
    refine ⟨_, rfl, fun r hr' => .inl ⟨pc, i, ?_⟩⟩
    have : r.endpoint = en := by
      unfold Torrent.onSuccess at hr'
      split at hr'
      · cases hr'
      · split at hr'
        · simp only [] at hr'
          split at hr'
          · cases hr'
          · exact (requestNext_spec _ _ _ _).2 r hr'
        · cases hr'
    rw [this]
  | failed en i rest hd hm shuffled hs =>
    refine ⟨_, rfl, fun r hr' => .inr ?_⟩
    rcases among_inv hr with h | ⟨info, n, h⟩
    · obtain ⟨p, e, -⟩ := h.mail _ (by rw [hm]; exact List.mem_cons_self ..)
      cases e
    · refine (C104_exact (ε := Unit) hrt _).mp ⟨shuffled, ?_, ?_⟩
      · simp only [Sys.after]
        rw [(onFailed_known h shuffled en i).1]
        exact hs
      · rw [Torrent.onFailed, h.pool] at hr'
        simp only [h.hasInfo] at hr'
        split at hr'
        · rename_i next hn
          rw [(requestNext_spec _ _ _ _).2 r hr']
          exact hn
        · cases hr'
  | collect p rest hd hm hi tcp f peerId room collected fs hnh hc =>
    refine ⟨_, rfl, fun r hr' => ?_⟩
    exfalso
    unfold Torrent.onCollected at hr'
    repeat' split at hr'
    all_goals cases hr'
  | found p rest hd hm info hi shuffles hn hs =>
    refine ⟨_, rfl, fun r hr' => .inr ?_⟩
    have hpeers : ∀ l ∈ shuffles, l.Perm (s.after (.found p) rest ((s.torrent.addPeer p).onReady info shuffles)).torrent.peers := by
      intro l hl
      simp only [Sys.after]
      rw [onReady_peers]
      exact hs l hl
    refine (C104_exact (ε := Unit) hrt _).mp ?_
    suffices h : ∃ l ∈ shuffles, (TPeer.findSuitablePeer l : Res Unit Bytes) = .ok r.endpoint by
      obtain ⟨l, hl, e⟩ := h
      exact ⟨l, hpeers l hl, e⟩
    unfold Torrent.onReady at hr'
    split at hr'
    · split at hr'
      · cases hr'
      · exact startRequests_chosen info shuffles _ r hr'
    · cases hr'
where
  startRequests_chosen (info : Info) : ∀ (sh : List (List TPeer)) (pool : PiecePool), ∀ r ∈ (startRequests info sh pool).2.2,
      ∃ l ∈ sh, (TPeer.findSuitablePeer l : Res Unit Bytes) = .ok r.endpoint := by
    intro sh
    induction sh with
    | nil => intro pool r hr; cases hr
    | cons l sh ih =>
      intro pool r hr
      have up : (∃ l ∈ sh, (TPeer.findSuitablePeer l : Res Unit Bytes) = .ok r.endpoint) →
          ∃ x ∈ l :: sh, (TPeer.findSuitablePeer x : Res Unit Bytes) = .ok r.endpoint := fun ⟨x, hx, e⟩ => ⟨x, List.mem_cons_of_mem _ hx, e⟩
      unfold startRequests at hr
      split at hr
      · rename_i e he
        cases pool with
        | nil => exact up (ih _ r hr)
        | cons i pool =>
          rcases List.mem_cons.mp hr with rfl | hr
          · exact ⟨l, List.mem_cons_self, he⟩
          · exact up (ih _ r hr)
      · cases hr

/-! ### All failures counted -/

theorem named_append {e : Bytes} {log : List Mail} (h : NamedPeer e log) (more : List Mail) : NamedPeer e (log ++ more) :=
  let ⟨p, hp, he⟩ := h
  ⟨p, List.mem_append_left _ hp, he⟩

theorem named_iff {e : Bytes} {log : List Mail} : NamedPeer e log ↔ ∃ n, failuresSince e log = some n := by
  constructor
  · rintro ⟨p, hp, rfl⟩
    induction log with
    | nil => cases hp
    | cons m log ih =>
      rw [failuresSince_cons]
      cases hl : failuresSince p.endpoint log with
      | some n => exact ⟨n, rfl⟩
      | none =>
        rcases List.mem_cons.mp hp with rfl | hp
        · exact ⟨_, if_pos rfl⟩
        · obtain ⟨n, hn⟩ := ih hp
          rw [hl] at hn
          cases hn
  · rintro ⟨n, hn⟩
    induction log with
    | nil => cases hn
    | cons m log ih =>
      rw [failuresSince_cons] at hn
      cases hl : failuresSince e log with
      | some k =>
        obtain ⟨p, hp, he⟩ := ih (by rw [hl] at hn; rw [hl]; exact hn)
        exact ⟨p, List.mem_cons_of_mem _ hp, he⟩
      | none =>
        rw [hl] at hn
        cases m with
        | found p =>
          simp only [] at hn
          split at hn
          · rename_i he
            exact ⟨p, List.mem_cons_self, he⟩
          · cases hn
        | success => cases hn
        | failed => cases hn

theorem failuresSince_found (e : Bytes) (log : List Mail) (p : PeerEndpoint) :
    failuresSince e (log ++ [.found p]) = if p.endpoint = e then some 0 else failuresSince e log := by
  induction log with
  | nil => rfl
  | cons m log ih =>
    rw [List.cons_append, failuresSince_cons, failuresSince_cons, ih]
    by_cases he : p.endpoint = e
    · simp only [if_pos he]
    · simp only [if_neg he, failures_append]
      rfl

theorem failuresSince_other (e : Bytes) (log : List Mail) (m : Mail) (hm : ∀ p, m ≠ .found p) :
    failuresSince e (log ++ [m]) = (failuresSince e log).map (· + failures e [m]) := by
  induction log with
  | nil => cases m with
    | found p => exact absurd rfl (hm p)
    | success => rfl
    | failed => rfl
  | cons x log ih =>
    rw [List.cons_append, failuresSince_cons, failuresSince_cons, ih]
    cases failuresSince e log with
    | some n => rfl
    | none =>
      cases x with
      | found p =>
        simp only [Option.map_none, failures_append]
        split <;> rfl
      | success => rfl
      | failed => rfl

/-- Who is asked, and who is heard of, has been named; and nobody fails before. -/
structure HeardOf (s : Sys) : Prop where
  requests : ∀ r ∈ s.queue ++ s.busy, NamedPeer r.endpoint s.handled
  success : ∀ e piece i, Mail.success e piece i ∈ s.mail → NamedPeer e s.handled
  failed : ∀ e i, Mail.failed e i ∈ s.mail → NamedPeer e s.handled
  count : NamedOnce s.handled → ∀ e, (failuresSince e s.handled).getD 0 = failures e s.handled

theorem heardOf_handled {w : World} {s t : Sys} {m : Mail} {rest : List Mail} (hr : Among w s) (h : HeardOf s) (hst : Step w s t) (hm : s.mail = m :: rest)
    (hh : t.handled = s.handled ++ [m]) (ht : t.mail = rest) (hb : t.busy = s.busy) : HeardOf t := by
  obtain ⟨more, hq, hmore⟩ := C104_requests hr hst hh
  refine ⟨fun r hr' => ?_, fun e piece i hi => ?_, fun e i hi => ?_, fun ho e => ?_⟩
  · rw [hq, hb] at hr'
    simp only [List.mem_append] at hr'
    rw [hh]
    rcases hr' with (hr' | hr') | hr'
    · exact named_append (h.requests r (List.mem_append_left _ hr')) _
    · rcases hmore r hr' with ⟨piece, i, rfl⟩ | ⟨n, hn, -⟩
      · exact named_append (h.success _ _ _ (by rw [hm]; exact List.mem_cons_self)) _
      · rw [← hh]
        exact named_iff.mpr ⟨n, hn⟩
    · exact named_append (h.requests r (List.mem_append_right _ hr')) _
  · rw [hh]
    exact named_append (h.success e piece i (by rw [hm]; rw [ht] at hi; exact List.mem_cons_of_mem _ hi)) _
  · rw [hh]
    exact named_append (h.failed e i (by rw [hm]; rw [ht] at hi; exact List.mem_cons_of_mem _ hi)) _
  · rw [hh] at ho ⊢
    have ho' : NamedOnce s.handled := by
      rw [NamedOnce, List.filterMap_append] at ho
      exact (List.nodup_append.mp ho).1
    have ih := h.count ho' e
    rw [failures_append, ← ih]
    cases m with
    | found p =>
      rw [failuresSince_found]
      by_cases he : p.endpoint = e
      · rw [if_pos he]
        have hnone : failuresSince e s.handled = none := by
          cases hs : failuresSince e s.handled with
          | none => rfl
          | some n =>
            exfalso
            obtain ⟨q, hq, hqe⟩ := named_iff.mpr ⟨n, hs⟩
            rw [NamedOnce, List.filterMap_append] at ho
            exact (List.nodup_append.mp ho).2.2 e (List.mem_filterMap.mpr ⟨_, hq, by simp [hqe]⟩) e (by simp [he]) rfl
        rw [hnone]
        rfl
      · rw [if_neg he]
        rfl
    | success en pc i =>
      rw [failuresSince_other _ _ _ (fun p => by simp)]
      cases failuresSince e s.handled <;> rfl
    | failed en i =>
      rw [failuresSince_other _ _ _ (fun p => by simp)]
      cases hs : failuresSince e s.handled with
      | some n => rfl
      | none =>
        by_cases he : en = e
        · subst he
          obtain ⟨n, hn⟩ := named_iff.mp (h.failed en i (by rw [hm]; exact List.mem_cons_self))
          rw [hs] at hn
          cases hn
        · simp [failures, he]

theorem heardOf_among {w : World} {s : Sys} (hr : Among w s) : HeardOf s := by
  induction hr with
  | init => exact ⟨(fun r h => by cases h), (fun e p i h => by cases h), (fun e i h => by cases h), (fun _ e => rfl)⟩
  | disk _ _ ih => exact ⟨ih.requests, ih.success, ih.failed, ih.count⟩
  | wrote _ _ _ _ _ _ _ ih => exact ⟨ih.requests, ih.success, ih.failed, ih.count⟩
  | step hr hst ih =>
    have hst' := hst
    cases hst with
    | announce bytes p hp =>
      exact ⟨ih.requests, fun e pc i hi => ih.success e pc i (by simpa using hi), fun e i hi => ih.failed e i (by simpa using hi), ih.count⟩
    | take r queue hq hb =>
      refine ⟨fun x hx => ih.requests x ?_, ih.success, ih.failed, ih.count⟩
      simp only [hq, List.mem_append, List.mem_cons, List.not_mem_nil, or_false] at hx ⊢
      rcases hx with hx | hx | hx
      · exact .inl (.inr hx)
      · exact .inr hx
      · exact .inl (.inl hx)
    | finishOk pre post r hb tcp f peerId piece hd =>
      refine ⟨fun x hx => ih.requests x ?_, fun e pc i hi => ?_, fun e i hi => ih.failed e i (by simpa using hi), ih.count⟩
      · rw [hb]
        simp only [List.mem_append, List.mem_cons] at hx ⊢
        rcases hx with hx | hx | hx
        · exact .inl hx
        · exact .inr (.inl hx)
        · exact .inr (.inr (.inr hx))
      · rcases List.mem_append.mp hi with hi | hi
        · exact ih.success e pc i hi
        · simp only [List.mem_singleton, Mail.success.injEq] at hi
          rw [hi.1]
          exact ih.requests r (by rw [hb]; simp)
    | finishErr pre post r hb tcp f peerId er hd =>
      refine ⟨fun x hx => ih.requests x ?_, fun e pc i hi => ih.success e pc i (by simpa using hi), fun e i hi => ?_, ih.count⟩
      · rw [hb]
        simp only [List.mem_append, List.mem_cons] at hx ⊢
        rcases hx with hx | hx | hx
        · exact .inl hx
        · exact .inr (.inl hx)
        · exact .inr (.inr (.inr hx))
      · rcases List.mem_append.mp hi with hi | hi
        · exact ih.failed e i hi
        · simp only [List.mem_singleton, Mail.failed.injEq] at hi
          rw [hi.1]
          exact ih.requests r (by rw [hb]; simp)
    | finishPanic pre post r hb tcp f peerId hd =>
      refine ⟨fun x hx => ih.requests x ?_, ih.success, ih.failed, ih.count⟩
      rw [hb]
      simp only [List.mem_append, List.mem_cons] at hx ⊢
      rcases hx with hx | hx | hx
      · exact .inl hx
      · exact .inr (.inl hx)
      · exact .inr (.inr (.inr hx))
    | write r ready hu hr res fs hw => exact ⟨ih.requests, ih.success, ih.failed, ih.count⟩
    | success en pc i rest hd hm => exact heardOf_handled hr ih hst' hm rfl rfl rfl
    | failed en i rest hd hm => exact heardOf_handled hr ih hst' hm rfl rfl rfl
    | collect p rest hd hm => exact heardOf_handled hr ih hst' hm rfl rfl rfl
    | found p rest hd hm => exact heardOf_handled hr ih hst' hm rfl rfl rfl

/-- C104, if no peer is named twice: the peers that a torrent may choose are those that failed less than twice in all; if there are none, less than four times;
if there are none, all. Missing: peers named twice, see `C104_refuted`. -/
theorem C104_total_partial {ε : Type} {w : World} {s : Sys} (hr : Among w s) (ho : NamedOnce s.handled) (e : Bytes) :
    (∃ shuffled : List TPeer, shuffled.Perm s.torrent.peers ∧ (TPeer.findSuitablePeer shuffled : Res ε Bytes) = .ok e) ↔ EligibleInTotal s.handled e := by
  rw [C104_exact hr]
  have hc := (heardOf_among hr).count ho
  have key : ∀ e n, failuresSince e s.handled = some n ↔ NamedPeer e s.handled ∧ n = failures e s.handled := by
    intro e n
    constructor
    · intro hn
      refine ⟨named_iff.mpr ⟨n, hn⟩, ?_⟩
      rw [← hc e, hn]
      rfl
    · rintro ⟨hn, rfl⟩
      obtain ⟨k, hk⟩ := named_iff.mp hn
      rw [hk, ← hc e, hk]
      rfl
  have all : ∀ k, (∀ e m, failuresSince e s.handled = some m → k ≤ m) ↔ ∀ e, NamedPeer e s.handled → k ≤ failures e s.handled := by
    intro k
    constructor
    · intro h e he
      exact h e _ ((key e _).mpr ⟨he, rfl⟩)
    · intro h e m hm
      obtain ⟨h1, rfl⟩ := (key e m).mp hm
      exact h e h1
  rw [Eligible, EligibleInTotal, all, all]
  constructor
  · rintro ⟨n, hn, h⟩
    obtain ⟨h1, rfl⟩ := (key e n).mp hn
    exact ⟨h1, h⟩
  · rintro ⟨h1, h⟩
    exact ⟨_, (key e _).mpr ⟨h1, rfl⟩, h⟩

/-! ### A peer named again and again -/

/-- A torrent that asks one peer only, at rest. -/
structure AsksOnly (w : World) (e : Bytes) (s : Sys) : Prop where
  among : Among w s
  info : ∃ info, s.torrent.info = some info
  up : s.down = false
  initiated : s.torrent.initiated = true
  queue : s.queue ≠ []
  only : ∀ r ∈ s.queue, r.endpoint = e
  idle : s.busy = []
  workers : 0 < s.workers
  mail : s.mail = []

/-- The peer is named again, does not answer, and is asked again. -/
theorem asked_again {w : World} {bytes : Bytes} {p : PeerEndpoint} (hp : p ∈ PeerEndpoint.fromBytes bytes) {s : Sys} (h : AsksOnly w p.endpoint s) :
    ∃ t i, Steps w s t ∧ AsksOnly w p.endpoint t ∧ t.handled = s.handled ++ [.found p, .failed p.endpoint i] := by
  obtain ⟨hr, ⟨info, hi⟩, hup, hini, hq, honly, hidle, hw, hmail⟩ := h
  obtain ⟨n, hk⟩ := among_known hr hi
  obtain ⟨r, q, hrq⟩ := List.exists_cons_of_ne_nil hq
  have hre : r.endpoint = p.endpoint := honly r (by rw [hrq]; exact List.mem_cons_self)
  obtain ⟨a, ha⟩ := fromBytes_parses hp
  have hdown : (downloadPiece w.sha w.build (dialOf r.endpoint (fun _ => none)) 0 [] r.info r.idx) = .err .stream := by
    rw [hre, dialOf, ha]
    rfl
  have s1 := Step.take (w := w) s r q hrq (by rw [hidle]; exact hw)
  have s2 := Step.announce (w := w) { s with queue := q, busy := s.busy ++ [r] } bytes p hp
  have s3 := Step.finishErr (w := w) { s with queue := q, busy := s.busy ++ [r], mail := s.mail ++ [.found p] } [] [] r (by rw [hidle])
    (fun _ => none) 0 [] .stream hdown
  let s' : Sys := { s with queue := q, busy := [], mail := [.found p, .failed p.endpoint r.idx] }
  have e3 : ({ s with queue := q, busy := [] ++ [], mail := (s.mail ++ [.found p]) ++ [.failed r.endpoint r.idx] } : Sys) = s' := by
    rw [hmail, hre]
    rfl
  have hs3 : Steps w s s' := by
    rw [← e3]
    exact .tail (.tail (.tail (.refl _) s1) s2) s3
  have s4 := Step.found (w := w) s' p [.failed p.endpoint r.idx] hup rfl info hi (List.replicate 5 (s.torrent.addPeer p).peers) (by simp)
    (fun l hl => by rw [List.eq_of_mem_replicate hl])
  have hready : (s'.torrent.addPeer p).onReady info (List.replicate 5 (s.torrent.addPeer p).peers) = ⟨.ok (), s.torrent.addPeer p, [], []⟩ := by
    rw [Torrent.onReady, if_neg]
    have : (s'.torrent.addPeer p).initiated = true := hini
    simp [this]
  rw [hready] at s4
  have hpool : s.torrent.pool = some (waiting s) := hk.pool
  let peers := TPeer.updateFailed (s.torrent.peers ++ [TPeer.new p.endpoint]) p.endpoint
  have hnew : (⟨p.endpoint, 0, 1⟩ : TPeer) ∈ peers := by
    refine List.mem_map.mpr ⟨TPeer.new p.endpoint, by simp, ?_⟩
    simp [TPeer.new]
  have s5 := Step.failed (w := w) (s'.after (.found p) [.failed p.endpoint r.idx] ⟨.ok (), s.torrent.addPeer p, [], []⟩) p.endpoint r.idx [] rfl rfl
    (⟨p.endpoint, 0, 1⟩ :: peers.erase ⟨p.endpoint, 0, 1⟩) (List.perm_cons_erase hnew).symm
  have hsuit : (TPeer.findSuitablePeer (⟨p.endpoint, 0, 1⟩ :: peers.erase ⟨p.endpoint, 0, 1⟩) : Res Unit Bytes) = .ok p.endpoint := by
    unfold TPeer.findSuitablePeer
    rw [List.find?_cons_of_pos (by simp)]
  have hlen : 0 < (PiecePool.insert (waiting s) r.idx).length := by simp [PiecePool.insert]
  cases hins : PiecePool.insert (waiting s) r.idx with
  | nil => rw [hins] at hlen; cases hlen
  | cons j rest =>
    have hout : ((s'.after (.found p) [.failed p.endpoint r.idx] ⟨.ok (), s.torrent.addPeer p, [], []⟩).torrent.onFailed
        (⟨p.endpoint, 0, 1⟩ :: peers.erase ⟨p.endpoint, 0, 1⟩) p.endpoint r.idx) =
        ⟨.ok (), { s.torrent with info := some info, peers, pool := some rest }, [⟨p.endpoint, info, j⟩], []⟩ := by
      have e1 : (s'.after (.found p) [.failed p.endpoint r.idx] ⟨.ok (), s.torrent.addPeer p, [], []⟩).torrent = s.torrent.addPeer p := rfl
      have e2 : (s.torrent.addPeer p).pool = some (waiting s) := hpool
      have e4 : (s.torrent.addPeer p).info = some info := hi
      rw [e1, Torrent.onFailed, e2]
      simp only [hsuit, e4, hins]
      rfl
    rw [hout] at s5
    refine ⟨_, r.idx, .tail (.tail hs3 s4) s5, ⟨among_steps hr (.tail (.tail hs3 s4) s5), ⟨info, rfl⟩, rfl, hini, ?_, ?_, rfl, hw, rfl⟩, ?_⟩
    · simp [Sys.after]
    · intro x hx
      simp only [Sys.after, List.append_nil, List.mem_append, List.mem_singleton] at hx
      rcases hx with hx | rfl
      · exact honly x (by rw [hrq]; exact List.mem_cons_of_mem _ hx)
      · rfl
    · simp [Sys.after, s']

/-- C104 does not hold if peers are named again, as they are whenever a tracker is asked again or two trackers name the same peer: a peer that never answers
may get every request, however often it failed, while every other peer stays as it was. -/
theorem C104_refuted {w : World} {bytes : Bytes} {p : PeerEndpoint} (hp : p ∈ PeerEndpoint.fromBytes bytes) {s : Sys} (h : AsksOnly w p.endpoint s) (n : Nat) :
    ∃ t, Steps w s t ∧ (∀ r ∈ t.queue, r.endpoint = p.endpoint) ∧ t.queue ≠ [] ∧ failures p.endpoint t.handled = failures p.endpoint s.handled + n ∧
      ∀ e, e ≠ p.endpoint → failures e t.handled = failures e s.handled ∧ (NamedPeer e t.handled ↔ NamedPeer e s.handled) := by
  suffices hs : ∃ t, Steps w s t ∧ AsksOnly w p.endpoint t ∧ failures p.endpoint t.handled = failures p.endpoint s.handled + n ∧
      ∀ e, e ≠ p.endpoint → failures e t.handled = failures e s.handled ∧ (NamedPeer e t.handled ↔ NamedPeer e s.handled) by
    obtain ⟨t, h1, h2, h3⟩ := hs
    exact ⟨t, h1, h2.only, h2.queue, h3⟩
  induction n with
  | zero => exact ⟨s, .refl _, h, rfl, fun e _ => ⟨rfl, Iff.rfl⟩⟩
  | succ n ih =>
    obtain ⟨t, h1, h2, h3, h4⟩ := ih
    obtain ⟨u, i, g1, g2, g3⟩ := asked_again hp h2
    refine ⟨u, h1.trans g1, g2, ?_, fun e he => ?_⟩
    · rw [g3, failures_append, h3]
      simp [failures]
      omega
    · obtain ⟨h5, h6⟩ := h4 e he
      refine ⟨?_, ?_⟩
      · rw [g3, failures_append, h5]
        simp [failures, Ne.symm he]
      · rw [← h6, g3]
        constructor
        · rintro ⟨q, hq, rfl⟩
          rcases List.mem_append.mp hq with hq | hq
          · exact ⟨q, hq, rfl⟩
          · simp at hq
            rw [hq] at he
            exact absurd rfl he
        · exact fun hx => named_append hx _

/-- Another peer. -/
def peer1 : PeerEndpoint := ⟨b!"5.6.7.8", 80⟩

theorem peer1_found : peer1 ∈ PeerEndpoint.fromBytes [5, 6, 7, 8, 0, 80] := by decide +kernel

/-- A torrent that has started by asking one peer, named eleven times, and then been told of another. -/
theorem asksOnly_two (w : World) (hash : Bytes) (hh : 2 < hash.length) : ∃ fs s, Steps w (Sys.init hash fs) s ∧ AsksOnly w peer0.endpoint s ∧
    s.handled = List.replicate 11 (.found peer0) ++ [.found peer1] := by
  have hst := run_started (w := w) (infoHash := hash) (info := threeBytes w.sha) (n := 2) hh (threeBytes_typed _) (threeBytes_total _ _) (by decide)
  generalize cachedFs w.cwd hash (threeBytes w.sha) = fs at hst
  have s1 := Step.announce (w := w) (startedSys fs hash (threeBytes w.sha) 2) _ peer1 peer1_found
  have s2 := Step.found (w := w) { startedSys fs hash (threeBytes w.sha) 2 with mail := [.found peer1] } peer1 [] rfl rfl _ rfl
    (List.replicate 5 ((startedSys fs hash (threeBytes w.sha) 2).torrent.addPeer peer1).peers) rfl (fun l hl => by rw [List.eq_of_mem_replicate hl])
  refine ⟨fs, _, .tail (.tail hst s1) s2, ⟨among_of (.tail (.tail hst s1) s2), ⟨_, rfl⟩, rfl, rfl, ?_, ?_, rfl, ?_, rfl⟩, rfl⟩
  · exact List.cons_ne_nil _ _
  · intro r hr
    have : r ∈ ([⟨peer0.endpoint, threeBytes w.sha, 0⟩, ⟨peer0.endpoint, threeBytes w.sha, 1⟩] : List Request) := hr
    simp only [List.mem_cons, List.not_mem_nil, or_false] at this
    rcases this with rfl | rfl <;> rfl
  · show 0 < 5
    decide

/-- C104 does not hold for all failures: in every world, and for every number, a torrent may get to a state in which a peer failed that often, another one has
been named and never failed, and all requests are for the first. -/
theorem C104_refuted_total (w : World) (hash : Bytes) (hh : 2 < hash.length) (n : Nat) (hn : 2 ≤ n) : ∃ fs s, Steps w (Sys.init hash fs) s ∧
    failures peer0.endpoint s.handled = n ∧ NamedPeer peer1.endpoint s.handled ∧ failures peer1.endpoint s.handled = 0 ∧ s.queue ≠ [] ∧
    ∀ r ∈ s.queue, r.endpoint = peer0.endpoint ∧ ¬ EligibleInTotal s.handled r.endpoint := by
  obtain ⟨fs, s, h1, h2, h3⟩ := asksOnly_two w hash hh
  obtain ⟨t, g1, g2, g3, g4, g5⟩ := C104_refuted peer0_found h2 n
  have f0 : failures peer0.endpoint s.handled = 0 := by rw [h3]; decide +kernel
  obtain ⟨g6, g7⟩ := g5 peer1.endpoint (by decide +kernel)
  have f1 : failures peer1.endpoint t.handled = 0 := by rw [g6, h3]; decide +kernel
  have n1 : NamedPeer peer1.endpoint t.handled := g7.mpr ⟨peer1, by rw [h3]; simp, rfl⟩
  have ft : failures peer0.endpoint t.handled = n := by rw [g4, f0, Nat.zero_add]
  refine ⟨fs, t, h1.trans g1, ft, n1, f1, g3, fun r hr => ⟨g2 r hr, ?_⟩⟩
  rw [g2 r hr]
  rintro ⟨-, h | ⟨h, -⟩⟩
  · rw [ft] at h
    omega
  · have := h _ n1
    omega

/-- After the peer was named, and failed four times, while another failed once, only the other may be chosen; when the first is named again, either. -/
example : Eligible [.found peer0, .found peer1, .failed peer0.endpoint 0, .failed peer0.endpoint 1, .failed peer1.endpoint 2, .failed peer0.endpoint 3, .failed peer0.endpoint 0]
      peer1.endpoint ∧
    ¬ Eligible [.found peer0, .found peer1, .failed peer0.endpoint 0, .failed peer0.endpoint 1, .failed peer1.endpoint 2, .failed peer0.endpoint 3, .failed peer0.endpoint 0]
      peer0.endpoint ∧
    Eligible [.found peer0, .found peer1, .failed peer0.endpoint 0, .failed peer0.endpoint 1, .failed peer1.endpoint 2, .failed peer0.endpoint 3, .failed peer0.endpoint 0,
      .found peer0] peer0.endpoint := by
  refine ⟨⟨1, by decide +kernel, .inl (by decide)⟩, ?_, ⟨0, by decide +kernel, .inl (by decide)⟩⟩
  rintro ⟨n, hn, h⟩
  have e : n = 4 := Option.some.inj (hn.symm.trans (by decide +kernel))
  subst e
  rcases h with h | ⟨h, -⟩
  · omega
  · have := h peer1.endpoint 1 (by decide +kernel)
    omega

/-! ### Eleven peers, one of which fails -/

/-- The peers of an address. -/
def peerAt (port : Nat) : PeerEndpoint := ⟨b!"1.2.3.4", port⟩

theorem peerAt_found : ∀ k < 11, peerAt k ∈ PeerEndpoint.fromBytes [1, 2, 3, 4, 0, UInt8.ofNat k] := by decide +kernel

/-- A torrent with metadata after some of them have been named. -/
def knownAt (fs : FS) (infoHash : Bytes) (info : Info) (n k : Nat) : Sys :=
  { Sys.init infoHash fs with
    torrent := ⟨some info, infoHash, (List.range k).map fun i => TPeer.new (peerAt i).endpoint, some (PiecePool.new n), false⟩
    handled := (List.range k).map fun i => .found (peerAt i) }

theorem run_knownAt {w : World} {fs : FS} {infoHash : Bytes} {info : Info} {n : Nat} (h : 2 < infoHash.length) (ht : Typed info)
    (hcached : Cached fs w.cwd infoHash info) (hn : (pieceTotal w.build info : Res Unit Nat) = .ok n) :
    ∀ k, k < 10 → Steps w (Sys.init infoHash fs) (knownAt fs infoHash info n (k + 1)) := by
  intro k
  have hc : ∀ tcp, (collectInfo w.build w.cwd fs (dialOf (peerAt 0).endpoint tcp) 0 [] infoHash 0 : Res Unit (Option Info) × FS) = (.ok (some info), fs) :=
    fun tcp => collect_on h ht hcached _ _ _ _
  induction k with
  | zero =>
    intro _
    have s1 := Step.announce (w := w) (Sys.init infoHash fs) _ (peerAt 0) (peerAt_found 0 (by decide))
    have s2 := Step.collect (w := w) { Sys.init infoHash fs with mail := [.found (peerAt 0)] } (peerAt 0) [] rfl rfl rfl (fun _ => none) 0 [] 0 _ _ (by simp)
      (hc (fun _ => none))
    have e : ({ ({ Sys.init infoHash fs with mail := [.found (peerAt 0)] } : Sys).after (.found (peerAt 0)) []
        (((Sys.init infoHash fs).torrent.addPeer (peerAt 0)).onCollected w.build (.ok (some info))) with fs } : Sys) = knownAt fs infoHash info n 1 := by
      simp only [Torrent.onCollected, hn]
      rfl
    rw [← e]
    exact .tail (.tail (.refl _) s1) s2
  | succ k ih =>
    intro hk
    refine (ih (by omega)).trans ?_
    have s1 := Step.announce (w := w) (knownAt fs infoHash info n (k + 1)) _ (peerAt (k + 1)) (peerAt_found _ (by omega))
    have s2 := Step.found (w := w) { knownAt fs infoHash info n (k + 1) with mail := [.found (peerAt (k + 1))] } (peerAt (k + 1)) [] rfl rfl info rfl
      (List.replicate 5 ((knownAt fs infoHash info n (k + 1)).torrent.addPeer (peerAt (k + 1))).peers) (by simp)
      (by intro l hl; rw [List.eq_of_mem_replicate hl])
    have e : (({ knownAt fs infoHash info n (k + 1) with mail := [.found (peerAt (k + 1))] } : Sys).after (.found (peerAt (k + 1))) []
        (((knownAt fs infoHash info n (k + 1)).torrent.addPeer (peerAt (k + 1))).onReady info
          (List.replicate 5 ((knownAt fs infoHash info n (k + 1)).torrent.addPeer (peerAt (k + 1))).peers))) = knownAt fs infoHash info n (k + 2) := by
      rw [Torrent.onReady, if_neg]
      · simp [Sys.after, knownAt, Torrent.addPeer, Sys.init, List.range_succ]
      · simp [Torrent.addPeer, knownAt]
        omega
    rw [← e]
    exact .tail (.tail (.refl _) s1) s2

/-- The hypotheses of `C104_total_partial` can be met when peers fail: eleven peers are named, one of them is asked for both pieces, and does not answer. -/
example (w : World) (hash : Bytes) (hh : 2 < hash.length) : ∃ fs s, Steps w (Sys.init hash fs) s ∧ NamedOnce s.handled ∧ failures (peerAt 0).endpoint s.handled = 2 ∧
    ¬ EligibleInTotal s.handled (peerAt 0).endpoint ∧ EligibleInTotal s.handled (peerAt 1).endpoint := by
  have hst := run_knownAt (w := w) (infoHash := hash) (info := threeBytes w.sha) (n := 2) hh (threeBytes_typed _) (cachedFs_cached _ _ _) (threeBytes_total _ _) 9 (by decide)
  generalize cachedFs w.cwd hash (threeBytes w.sha) = fs at hst
  have s1 := Step.announce (w := w) (knownAt fs hash (threeBytes w.sha) 2 10) _ (peerAt 10) (peerAt_found _ (by decide))
  have s2 := Step.found (w := w) { knownAt fs hash (threeBytes w.sha) 2 10 with mail := [.found (peerAt 10)] } (peerAt 10) [] rfl rfl _ rfl
    (List.replicate 5 ((knownAt fs hash (threeBytes w.sha) 2 10).torrent.addPeer (peerAt 10)).peers) rfl (by intro l hl; rw [List.eq_of_mem_replicate hl])
  let peers (k : Nat) : List TPeer := ⟨(peerAt 0).endpoint, 0, k⟩ :: (List.range 10).map fun i => TPeer.new (peerAt (i + 1)).endpoint
  let log : List Mail := (List.range 11).map fun i => .found (peerAt i)
  let req (i : Nat) : Request := ⟨(peerAt 0).endpoint, threeBytes w.sha, i⟩
  let at0 (k : Nat) (pool : List Nat) (queue busy : List Request) (mail more : List Mail) : Sys :=
    { Sys.init hash fs with torrent := ⟨some (threeBytes w.sha), hash, peers k, some pool, true⟩, queue, busy, mail, handled := log ++ more }
  have e2 : (({ knownAt fs hash (threeBytes w.sha) 2 10 with mail := [.found (peerAt 10)] } : Sys).after (.found (peerAt 10)) []
      (((knownAt fs hash (threeBytes w.sha) 2 10).torrent.addPeer (peerAt 10)).onReady (threeBytes w.sha)
        (List.replicate 5 ((knownAt fs hash (threeBytes w.sha) 2 10).torrent.addPeer (peerAt 10)).peers))) = at0 0 [] [req 0, req 1] [] [] [] := rfl
  have hd : ∀ i, downloadPiece w.sha w.build (dialOf (req i).endpoint (fun _ => none)) 0 [] (req i).info (req i).idx = .err .stream := by
    intro i
    have : parseSocketV4 (peerAt 0).endpoint = some ([1, 2, 3, 4], 0) := by decide +kernel
    show downloadPiece w.sha w.build (dialOf (peerAt 0).endpoint (fun _ => none)) 0 [] (req i).info (req i).idx = .err .stream
    rw [dialOf, this]
    rfl
  have t1 := Step.take (w := w) (at0 0 [] [req 0, req 1] [] [] []) (req 0) [req 1] rfl (by show 0 < 5; decide)
  have t2 := Step.take (w := w) (at0 0 [] [req 1] [req 0] [] []) (req 1) [] rfl (by show 1 < 5; decide)
  have t3 := Step.finishErr (w := w) (at0 0 [] [] [req 0, req 1] [] []) [] [req 1] (req 0) rfl (fun _ => none) 0 [] _ (hd 0)
  have t4 := Step.finishErr (w := w) (at0 0 [] [] [req 1] [.failed (peerAt 0).endpoint 0] []) [] [] (req 1) rfl (fun _ => none) 0 [] _ (hd 1)
  have t5 := Step.failed (w := w) (at0 0 [] [] [] [.failed (peerAt 0).endpoint 0, .failed (peerAt 0).endpoint 1] []) (peerAt 0).endpoint 0
    [.failed (peerAt 0).endpoint 1] rfl rfl (peers 1) (by
      have : TPeer.updateFailed (peers 0) (peerAt 0).endpoint = peers 1 := by decide +kernel
      exact this ▸ .refl _)
  have u5 : Steps w (Sys.init hash fs) (at0 0 [] [] [] [.failed (peerAt 0).endpoint 0, .failed (peerAt 0).endpoint 1] []) :=
    .tail (.tail (.tail (.tail (e2 ▸ .tail (.tail hst s1) s2) t1) t2) t3) t4
  have u6 := u5.tail t5
  obtain ⟨v, hv, hmail, hup, hpeers, hhand⟩ : ∃ v : Sys, Steps w (Sys.init hash fs) v ∧ v.mail = [.failed (peerAt 0).endpoint 1] ∧ v.down = false ∧
      v.torrent.peers = TPeer.updateFailed (peers 0) (peerAt 0).endpoint ∧ v.handled = log ++ [.failed (peerAt 0).endpoint 0] := ⟨_, u6, rfl, rfl, rfl, rfl⟩
  have t6 := Step.failed (w := w) v (peerAt 0).endpoint 1 [] hup hmail _ (.refl _)
  have hlog : (log ++ [Mail.failed (peerAt 0).endpoint 0]) ++ [.failed (peerAt 0).endpoint 1] = log ++ [.failed (peerAt 0).endpoint 0, .failed (peerAt 0).endpoint 1] := by
    rw [List.append_assoc]
    rfl
  refine ⟨fs, _, hv.tail t6, ?_, ?_, ?_, ?_⟩
  all_goals simp only [Sys.after, hhand, hlog]
  · show List.Nodup _
    decide +kernel
  · decide +kernel
  · rintro ⟨-, h | ⟨h, -⟩⟩
    · revert h
      decide +kernel
    · have := h (peerAt 1).endpoint ⟨peerAt 1, by decide +kernel, rfl⟩
      revert this
      decide +kernel
  · exact ⟨⟨peerAt 1, by decide +kernel, rfl⟩, .inl (by decide +kernel)⟩

end RustBit
