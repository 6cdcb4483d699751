/-
The whole program: it is a process and a set of trackers, and the torrents hear what the trackers say.
-/
import Verif.Spec.App
import Verif.Proofs.Process
import Verif.Props.Trackers

namespace RustBit
open Spec

/-! ### What a torrent may connect to -/

theorem told_append (s : Sys) (l : List Mail) : Sys.told { s with mail := s.mail ++ l } = s.told ++ l.filterMap (fun m => match m with | .found p => some p | _ => none) := by
  simp only [Sys.told, ← List.append_assoc, List.filterMap_append]
  rfl

/-- All endpoints the torrent knows of are of peers it was told of. -/
structure Asked (s : Sys) : Prop where
  peers : ∀ q ∈ s.torrent.peers, ∃ p ∈ s.told, p.endpoint = q.endpoint
  requests : ∀ r ∈ s.queue ++ s.busy, ∃ p ∈ s.told, p.endpoint = r.endpoint
  success : ∀ e pc i, Mail.success e pc i ∈ s.mail → ∃ p ∈ s.told, p.endpoint = e

theorem asked_init (infoHash : Bytes) (fs : FS) : Asked (Sys.init infoHash fs) :=
  ⟨(fun q h => by cases h), (fun r h => by cases h), (fun e pc i h => by cases h)⟩

theorem told_after (s : Sys) (msg : Mail) (rest : List Mail) (h : Outcome) (hm : s.mail = msg :: rest) : (s.after msg rest h).told = s.told := by
  simp only [Sys.told, Sys.after, hm, List.append_assoc, List.singleton_append]

theorem findSuitablePeer_mem {ε : Type} {l : List TPeer} {e : Bytes} (h : (TPeer.findSuitablePeer l : Res ε Bytes) = .ok e) : ∃ q ∈ l, q.endpoint = e := by
  unfold TPeer.findSuitablePeer at h
  split at h
  · rename_i p hp
    cases h
    exact ⟨p, List.mem_of_find?_eq_some hp, rfl⟩
  · split at h
    · rename_i p hp
      cases h
      exact ⟨p, List.mem_of_find?_eq_some hp, rfl⟩
    · split at h
      · cases h
        exact ⟨_, List.mem_cons_self, rfl⟩
      · cases h

theorem requestNext_spec (t : Torrent) (info : Info) (e : Bytes) (pool : PiecePool) :
    (t.requestNext info e pool).1.peers = t.peers ∧ ∀ r ∈ (t.requestNext info e pool).2, r.endpoint = e := by
  cases pool with
  | nil => exact ⟨rfl, fun r h => by cases h⟩
  | cons i q => exact ⟨rfl, fun r h => by rw [List.mem_singleton.mp h]⟩

theorem startRequests_endpoints (info : Info) (peers : List TPeer) : ∀ (sh : List (List TPeer)) (pool : PiecePool), (∀ l ∈ sh, l.Perm peers) →
    ∀ r ∈ (startRequests info sh pool).2.2, ∃ q ∈ peers, q.endpoint = r.endpoint := by
  intro sh
  induction sh with
  | nil => intro pool _ r hr; cases hr
  | cons l sh ih =>
    intro pool hl r hr
    have ih' := fun pool => ih pool (fun l h => hl l (List.mem_cons_of_mem _ h))
    unfold startRequests at hr
    split at hr
    · rename_i e he
      obtain ⟨q, hq, eq⟩ := findSuitablePeer_mem he
      cases pool with
      | nil => exact ih' _ r hr
      | cons i pool =>
        rcases List.mem_cons.mp hr with rfl | hr
        · exact ⟨q, (hl l List.mem_cons_self).mem_iff.mp hq, eq⟩
        · exact ih' _ r hr
    · cases hr

theorem asked_step {w : World} {s t : Sys} (h : Asked s) (hst : Step w s t) : Asked t := by
  cases hst with
  | announce bytes p hp =>
    have e := told_append s [.found p]
    refine ⟨fun q hq => ?_, fun r hr => ?_, fun en pc i hi => ?_⟩
    · obtain ⟨x, hx, ex⟩ := h.peers q hq
      exact ⟨x, by rw [e]; exact List.mem_append_left _ hx, ex⟩
    · obtain ⟨x, hx, ex⟩ := h.requests r hr
      exact ⟨x, by rw [e]; exact List.mem_append_left _ hx, ex⟩
    · obtain ⟨x, hx, ex⟩ := h.success en pc i (by simpa using hi)
      exact ⟨x, by rw [e]; exact List.mem_append_left _ hx, ex⟩
  | take r queue hq hb =>
    refine ⟨h.peers, fun x hx => h.requests x ?_, h.success⟩
    simp only [hq, List.mem_append, List.mem_cons, List.not_mem_nil, or_false] at hx ⊢
    rcases hx with hx | hx | hx
    · exact .inl (.inr hx)
    · exact .inr hx
    · exact .inl (.inl hx)
  | finishOk pre post r hb tcp f peerId piece hd =>
    have e := told_append s [.success r.endpoint piece r.idx]
    simp only [List.filterMap_cons, List.filterMap_nil, List.append_nil] at e
    have e : Sys.told { s with busy := pre ++ post, mail := s.mail ++ [.success r.endpoint piece r.idx] } = s.told := e
    refine ⟨fun q hq => by rw [e]; exact h.peers q hq, fun x hx => ?_, fun en pc i hi => ?_⟩
    · rw [e]
      refine h.requests x ?_
      rw [hb]
      simp only [List.mem_append, List.mem_cons] at hx ⊢
      rcases hx with hx | hx | hx
      · exact .inl hx
      · exact .inr (.inl hx)
      · exact .inr (.inr (.inr hx))
    · rw [e]
      rcases List.mem_append.mp hi with hi | hi
      · exact h.success en pc i hi
      · simp only [List.mem_singleton, Mail.success.injEq] at hi
        rw [hi.1]
        exact h.requests r (by rw [hb]; simp)
  | finishErr pre post r hb tcp f peerId er hd =>
    have e := told_append s [.failed r.endpoint r.idx]
    simp only [List.filterMap_cons, List.filterMap_nil, List.append_nil] at e
    have e : Sys.told { s with busy := pre ++ post, mail := s.mail ++ [.failed r.endpoint r.idx] } = s.told := e
    refine ⟨fun q hq => by rw [e]; exact h.peers q hq, fun x hx => ?_, fun en pc i hi => ?_⟩
    · rw [e]
      refine h.requests x ?_
      rw [hb]
      simp only [List.mem_append, List.mem_cons] at hx ⊢
      rcases hx with hx | hx | hx
      · exact .inl hx
      · exact .inr (.inl hx)
      · exact .inr (.inr (.inr hx))
    · rw [e]
      exact h.success en pc i (by simpa using hi)
  | finishPanic pre post r hb tcp f peerId hd =>
    refine ⟨h.peers, fun x hx => h.requests x ?_, h.success⟩
    rw [hb]
    simp only [List.mem_append, List.mem_cons] at hx ⊢
    rcases hx with hx | hx | hx
    · exact .inl hx
    · exact .inr (.inl hx)
    · exact .inr (.inr (.inr hx))
  | write r ready hu hr res fs hw => exact ⟨h.peers, h.requests, h.success⟩
  | success en pc i rest hd hm =>
    have e := told_after s _ rest (s.torrent.onSuccess en pc i) hm
    have hen := h.success en pc i (by rw [hm]; exact List.mem_cons_self)
    have key : (∀ q ∈ (s.torrent.onSuccess en pc i).torrent.peers, ∃ p ∈ s.told, p.endpoint = q.endpoint) ∧
        ∀ r ∈ (s.torrent.onSuccess en pc i).requests, r.endpoint = en := by
      have hup : ∀ q ∈ TPeer.updateSuccess s.torrent.peers en, ∃ p ∈ s.told, p.endpoint = q.endpoint := by
        intro q hq
        obtain ⟨q', hq', rfl⟩ := List.mem_map.mp hq
        obtain ⟨p, hp, e⟩ := h.peers q' hq'
        refine ⟨p, hp, ?_⟩
        split <;> exact e
      unfold Torrent.onSuccess
      split
      · exact ⟨h.peers, fun r hr => by cases hr⟩
      · rename_i info _
        split
        · simp only []
          split
          · exact ⟨hup, fun r hr => by cases hr⟩
          · rename_i pool _
            obtain ⟨a, b⟩ := requestNext_spec { s.torrent with peers := TPeer.updateSuccess s.torrent.peers en } info en pool
            exact ⟨fun q hq => hup q (by have hq : q ∈ (Torrent.requestNext _ info en pool).1.peers := hq; rwa [a] at hq), b⟩
        · exact ⟨h.peers, fun r hr => by cases hr⟩
    refine ⟨fun q hq => by rw [e]; exact key.1 q hq, fun r hr => ?_, fun en' pc' i' hi => ?_⟩
    · rw [e]
      simp only [Sys.after, List.mem_append] at hr
      rcases hr with (hr | hr) | hr
      · exact h.requests r (List.mem_append_left _ hr)
      · rw [key.2 r hr]; exact hen
      · exact h.requests r (List.mem_append_right _ hr)
    · rw [e]
      exact h.success en' pc' i' (by rw [hm]; exact List.mem_cons_of_mem _ hi)
  | failed en i rest hd hm shuffled hs =>
    have e := told_after s _ rest (s.torrent.onFailed shuffled en i) hm
    have hup : ∀ q ∈ TPeer.updateFailed s.torrent.peers en, ∃ p ∈ s.told, p.endpoint = q.endpoint := by
      intro q hq
      obtain ⟨q', hq', rfl⟩ := List.mem_map.mp hq
      obtain ⟨p, hp, e⟩ := h.peers q' hq'
      refine ⟨p, hp, ?_⟩
      split <;> exact e
    have key : (∀ q ∈ (s.torrent.onFailed shuffled en i).torrent.peers, ∃ p ∈ s.told, p.endpoint = q.endpoint) ∧
        ∀ r ∈ (s.torrent.onFailed shuffled en i).requests, ∃ p ∈ s.told, p.endpoint = r.endpoint := by
      unfold Torrent.onFailed
      split
      · exact ⟨h.peers, fun r hr => by cases hr⟩
      · rename_i pool _
        simp only []
        split
        · rename_i next hn
          obtain ⟨q, hq, eq⟩ := findSuitablePeer_mem hn
          obtain ⟨p, hp, ep⟩ := hup q (hs.mem_iff.mp hq)
          split
          · exact ⟨hup, fun r hr => by cases hr⟩
          · rename_i info _
            obtain ⟨a, b⟩ := requestNext_spec { s.torrent with pool := some (PiecePool.insert pool i), peers := TPeer.updateFailed s.torrent.peers en } info next
              (PiecePool.insert pool i)
            refine ⟨fun q hq => hup q (by have hq : q ∈ (Torrent.requestNext _ info next _).1.peers := hq; rwa [a] at hq), fun r hr => ⟨p, hp, ?_⟩⟩
            rw [b r hr, ep, eq]
        · exact ⟨hup, fun r hr => by cases hr⟩
    refine ⟨fun q hq => by rw [e]; exact key.1 q hq, fun r hr => ?_, fun en' pc' i' hi => ?_⟩
    · rw [e]
      simp only [Sys.after, List.mem_append] at hr
      rcases hr with (hr | hr) | hr
      · exact h.requests r (List.mem_append_left _ hr)
      · exact key.2 r hr
      · exact h.requests r (List.mem_append_right _ hr)
    · rw [e]
      exact h.success en' pc' i' (by rw [hm]; exact List.mem_cons_of_mem _ hi)
  | collect p rest hd hm hi tcp f peerId room collected fs hh hc =>
    have e := told_after s _ rest ((s.torrent.addPeer p).onCollected w.build collected) hm
    have hadd : ∀ q ∈ (s.torrent.addPeer p).peers, ∃ p ∈ s.told, p.endpoint = q.endpoint := by
      intro q hq
      rcases List.mem_append.mp hq with hq | hq
      · exact h.peers q hq
      · rw [List.mem_singleton.mp hq]
        exact ⟨p, by simp [Sys.told, hm], rfl⟩
    have key : ((s.torrent.addPeer p).onCollected w.build collected).torrent.peers = (s.torrent.addPeer p).peers ∧
        ((s.torrent.addPeer p).onCollected w.build collected).requests = [] := by
      unfold Torrent.onCollected
      repeat' split
      all_goals exact ⟨rfl, rfl⟩
    have e : Sys.told { s.after (.found p) rest ((s.torrent.addPeer p).onCollected w.build collected) with fs } = s.told := e
    refine ⟨fun q hq => by rw [e]; exact hadd q (by rw [← key.1]; exact hq), fun r hr => ?_, fun en' pc' i' hi => ?_⟩
    · rw [e]
      simp only [Sys.after, key.2, List.append_nil] at hr
      exact h.requests r hr
    · rw [e]
      exact h.success en' pc' i' (by rw [hm]; exact List.mem_cons_of_mem _ hi)
  | found p rest hd hm info hi shuffles hn hs =>
    have e := told_after s _ rest ((s.torrent.addPeer p).onReady info shuffles) hm
    have hadd : ∀ q ∈ (s.torrent.addPeer p).peers, ∃ p ∈ s.told, p.endpoint = q.endpoint := by
      intro q hq
      rcases List.mem_append.mp hq with hq | hq
      · exact h.peers q hq
      · rw [List.mem_singleton.mp hq]
        exact ⟨p, by simp [Sys.told, hm], rfl⟩
    have key : ((s.torrent.addPeer p).onReady info shuffles).torrent.peers = (s.torrent.addPeer p).peers ∧
        ∀ r ∈ ((s.torrent.addPeer p).onReady info shuffles).requests, ∃ q ∈ (s.torrent.addPeer p).peers, q.endpoint = r.endpoint := by
      unfold Torrent.onReady
      split
      · split
        · exact ⟨rfl, fun r hr => by cases hr⟩
        · rename_i pool _
          exact ⟨rfl, startRequests_endpoints info _ shuffles pool hs⟩
      · exact ⟨rfl, fun r hr => by cases hr⟩
    refine ⟨fun q hq => by rw [e]; exact hadd q (by rw [← key.1]; exact hq), fun r hr => ?_, fun en' pc' i' hi => ?_⟩
    · rw [e]
      simp only [Sys.after, List.mem_append] at hr
      rcases hr with (hr | hr) | hr
      · exact h.requests r (List.mem_append_left _ hr)
      · obtain ⟨q, hq, eq⟩ := key.2 r hr
        rw [← eq]
        exact hadd q hq
      · exact h.requests r (List.mem_append_right _ hr)
    · rw [e]
      exact h.success en' pc' i' (by rw [hm]; exact List.mem_cons_of_mem _ hi)

theorem infoHash_step {w : World} {s t : Sys} (hst : Step w s t) : t.torrent.infoHash = s.torrent.infoHash := by
  cases hst with
  | success => exact onSuccess_infoHash ..
  | failed => exact onFailed_infoHash ..
  | found => exact onReady_infoHash ..
  | collect p rest hd hm hi tcp f peerId room collected fs hh hc =>
    simp only [Sys.after]
    unfold Torrent.onCollected
    repeat' split
    all_goals rfl
  | _ => rfl

/-! ### The parts of the program -/

/-- What a step of the process other than starting, stopping and adding does to a torrent. -/
theorem slot_step {w : World} {P P' : Proc} (h : PStep w P P') (hl : P.log ≠ none) (hr : P'.log ≠ none) (hn : P'.slots.length = P.slots.length)
    {k : Nat} {s' : Slot} (hk : P'.slots[k]? = some s') :
    ∃ s, P.slots[k]? = some s ∧ (Step w { s.sys with fs := P.fs } s'.sys ∨
      s'.sys.torrent = s.sys.torrent ∧ s'.sys.mail = s.sys.mail ∧ s'.sys.handled = s.sys.handled ∧ s'.sys.queue = s.sys.queue ∧ s'.sys.busy = s.sys.busy) := by
  have other : ∀ {j : Nat} {s0 x : Slot}, P.slots[j]? = some s0 → (P.slots.set j x)[k]? = some s' →
      (x.sys.torrent = s0.sys.torrent ∧ x.sys.mail = s0.sys.mail ∧ x.sys.handled = s0.sys.handled ∧ x.sys.queue = s0.sys.queue ∧ x.sys.busy = s0.sys.busy ∨
        Step w { s0.sys with fs := P.fs } x.sys) →
      ∃ s, P.slots[k]? = some s ∧ (Step w { s.sys with fs := P.fs } s'.sys ∨
        s'.sys.torrent = s.sys.torrent ∧ s'.sys.mail = s.sys.mail ∧ s'.sys.handled = s.sys.handled ∧ s'.sys.queue = s.sys.queue ∧ s'.sys.busy = s.sys.busy) := by
    intro j s0 x hj hx hor
    by_cases hjk : j = k
    · subst hjk
      rw [List.getElem?_set_self (List.getElem?_eq_some_iff.mp hj).1] at hx
      cases hx
      exact ⟨s0, hj, hor.symm⟩
    · rw [List.getElem?_set_ne hjk] at hx
      exact ⟨s', hx, .inr ⟨rfl, rfl, rfl, rfl, rfl⟩⟩
  cases h with
  | start hl' => exact absurd hl' hl
  | log => exact ⟨s', hk, .inr ⟨rfl, rfl, rfl, rfl, rfl⟩⟩
  | add => simp at hn
  | act j s t hj hst => exact other hj hk (.inr hst)
  | begin j s r ready info ws hj => exact other hj hk (.inl ⟨rfl, rfl, rfl, rfl, rfl⟩)
  | beginCrash j s r ready info hj => exact other hj hk (.inl ⟨rfl, rfl, rfl, rfl, rfl⟩)
  | part j s x xs fs hj => exact other hj hk (.inl ⟨rfl, rfl, rfl, rfl, rfl⟩)
  | partCrash j s x xs fs r ready hj => exact other hj hk (.inl ⟨rfl, rfl, rfl, rfl, rfl⟩)
  | «end» j s r ready hj => exact other hj hk (.inl ⟨rfl, rfl, rfl, rfl, rfl⟩)
  | stop => exact absurd rfl hr

/-- What is known of every reachable state of the program. -/
structure AInv (A : App) : Prop where
  trackers : TSteps Trackers.init A.trackers
  added : ∀ k : Nat, A.trackers.added[k]? = (A.proc.slots[k]?).map fun s => (⟨s.sys.torrent.infoHash, k⟩ : Registered)
  home : A.home.length = A.proc.slots.length
  told : ∀ (k : Nat) (s : Slot), A.proc.slots[k]? = some s → s.sys.told = messagesTo k (A.trackers.found.take A.delivered)
  bound : A.delivered ≤ A.trackers.found.length
  asked : ∀ (k : Nat) (s : Slot), A.proc.slots[k]? = some s → Asked s.sys
  off : A.proc.log = none → A.proc.slots = []

theorem found_step {T T' : Trackers} (h : TStep T T') : ∃ more, T'.found = T.found ++ more := by
  cases h <;> first | exact ⟨[], (List.append_nil _).symm⟩ | exact ⟨_, rfl⟩

theorem ainv_off {P : Proc} {threads : Nat} (hs : P.slots = []) : AInv ⟨P, Trackers.init, threads, 0, [], []⟩ where
  trackers := .refl _
  added := fun k => by rw [hs]; rfl
  home := by rw [hs]; rfl
  told := fun k s h => by rw [hs] at h; cases h
  bound := Nat.zero_le _
  asked := fun k s h => by rw [hs] at h; cases h
  off := fun _ => hs

theorem ainv_init (fs : FS) (threads : Nat) : AInv (App.init fs threads) := ainv_off rfl

theorem asked_same {s s' : Sys} (h : Asked s) (h1 : s'.torrent = s.torrent) (h2 : s'.mail = s.mail) (h3 : s'.handled = s.handled) (h4 : s'.queue = s.queue)
    (h5 : s'.busy = s.busy) : Asked s' := by
  have e : s'.told = s.told := by simp only [Sys.told, h2, h3]
  exact ⟨fun q hq => by rw [e]; exact h.peers q (h1 ▸ hq), fun r hr => by rw [e]; exact h.requests r (by rw [← h4, ← h5]; exact hr),
    fun en pc i hi => by rw [e]; exact h.success en pc i (h2 ▸ hi)⟩

/-- Every torrent that there is after an `add` was there before, or is the new one. -/
theorem snoc_get {α : Type} {l : List α} {a b : α} {k : Nat} (h : (l ++ [a])[k]? = some b) : l[k]? = some b ∨ k = l.length ∧ b = a := by
  rcases Nat.lt_trichotomy k l.length with hk | hk | hk
  · rw [List.getElem?_append_left hk] at h
    exact .inl h
  · subst hk
    rw [List.getElem?_append_right (Nat.le_refl _), Nat.sub_self] at h
    cases h
    exact .inr ⟨rfl, rfl⟩
  · rw [List.getElem?_eq_none (by simp; omega)] at h
    cases h

theorem ainv_step {w : World} {A A' : App} (h : AInv A) (hs : AStep w A A') : AInv A' := by
  cases hs with
  | start hl P' hp hr =>
    have hs := h.off hl
    refine ainv_off ?_
    cases hp with
    | start => exact hs
    | log n hl' => rw [hl] at hl'; cases hl'
    | add hl' => exact absurd hl hl'
    | act k s t hk => rw [hs] at hk; cases hk
    | begin k s r ready info ws hk => rw [hs] at hk; cases hk
    | beginCrash k s r ready info hk => rw [hs] at hk; cases hk
    | part k s x xs fs hk => rw [hs] at hk; cases hk
    | partCrash k s x xs fs r ready hk => rw [hs] at hk; cases hk
    | «end» k s r ready hk => rw [hs] at hk; cases hk
    | stop => rfl
  | work hl P' hp hr hn hq =>
    have old : ∀ {k : Nat} {s' : Slot}, P'.slots[k]? = some s' → ∃ s, A.proc.slots[k]? = some s ∧ s'.sys.torrent.infoHash = s.sys.torrent.infoHash ∧
        s'.sys.told = s.sys.told ∧ Asked s'.sys := by
      intro k s' hk
      obtain ⟨s, hs, hor⟩ := slot_step hp hl hr hn hk
      refine ⟨s, hs, ?_, (hq k s s' hs hk).1, ?_⟩
      · rcases hor with hst | he
        · have := infoHash_step hst
          exact this
        · rw [he.1]
      · rcases hor with hst | ⟨h1, h2, h3, h4, h5⟩
        · have ha : Asked { s.sys with fs := A.proc.fs } := asked_same (h.asked k s hs) rfl rfl rfl rfl rfl
          exact asked_step ha hst
        · exact asked_same (h.asked k s hs) h1 h2 h3 h4 h5
    refine ⟨h.trackers, fun k => ?_, by rw [h.home, hn], fun k s' hk => ?_, h.bound, fun k s' hk => ?_, fun e => absurd e hr⟩
    · rw [h.added k]
      cases hk : P'.slots[k]? with
      | none =>
        rw [List.getElem?_eq_none_iff] at hk
        rw [List.getElem?_eq_none (by omega)]
      | some s' =>
        obtain ⟨s, hs, e, -⟩ := old hk
        rw [hs]
        simp only [Option.map_some, e]
    · obtain ⟨s, hs, -, e, -⟩ := old hk
      rw [e]
      exact h.told k s hs
    · obtain ⟨s, -, -, -, e⟩ := old hk
      exact e
  | add hl body infoHash hm thread hb hf T' ht ha =>
    obtain ⟨more, hmore⟩ := found_step ht
    have htake : T'.found.take A.delivered = A.trackers.found.take A.delivered := by
      rw [hmore, List.take_append_of_le_length h.bound]
    have hlen : A.trackers.added.length = A.proc.slots.length := by
      have h1 := h.added A.proc.slots.length
      rw [List.getElem?_eq_none (Nat.le_refl _), Option.map_none, List.getElem?_eq_none_iff] at h1
      rcases Nat.lt_or_ge A.trackers.added.length A.proc.slots.length with hlt | hge
      · have h2 := h.added A.trackers.added.length
        rw [List.getElem?_eq_none (Nat.le_refl _), List.getElem?_eq_getElem hlt] at h2
        cases h2
      · omega
    refine ⟨h.trackers.tail ht, fun k => ?_, by simp [h.home], fun k s hk => ?_, ?_, fun k s hk => ?_, fun e => absurd e hl⟩
    · simp only []
      rw [ha]
      rcases Nat.lt_trichotomy k A.proc.slots.length with hk | hk | hk
      · rw [List.getElem?_append_left (by omega), List.getElem?_append_left hk, h.added k]
      · subst hk
        rw [List.getElem?_append_right (by omega), List.getElem?_append_right (Nat.le_refl _), hlen, Nat.sub_self]
        rfl
      · rw [List.getElem?_eq_none (by simp; omega), List.getElem?_eq_none (by simp; omega)]
        rfl
    · simp only []
      rw [htake]
      rcases snoc_get hk with hk | ⟨hk', rfl⟩
      · exact h.told k s hk
      · subst hk'
        show [] = _
        symm
        have hno : ∀ x ∈ A.trackers.found.take A.delivered, (x.1 == A.proc.slots.length) = false := by
          intro x hx
          obtain ⟨r, hr, e, -⟩ := C73_messages_are_peers h.trackers x (List.mem_of_mem_take hx)
          obtain ⟨j, hj⟩ := List.getElem?_of_mem hr
          have hj' := h.added j
          rw [hj] at hj'
          cases hs : A.proc.slots[j]? with
          | none => rw [hs] at hj'; cases hj'
          | some s =>
            rw [hs] at hj'
            cases hj'
            have := (List.getElem?_eq_some_iff.mp hs).1
            rw [e]
            simp only [beq_eq_false_iff_ne]
            omega
        simp only [messagesTo]
        rw [List.filter_eq_nil_iff.mpr (fun x hx => by rw [hno x hx]; simp)]
        rfl
    · simp only []
      rw [hmore, List.length_append]
      have := h.bound
      omega
    · rcases snoc_get hk with hk | ⟨-, rfl⟩
      · exact h.asked k s hk
      · exact asked_init _ _
  | track hl T' ht ha =>
    obtain ⟨more, hmore⟩ := found_step ht
    have htake : T'.found.take A.delivered = A.trackers.found.take A.delivered := by
      rw [hmore, List.take_append_of_le_length h.bound]
    refine ⟨h.trackers.tail ht, fun k => by simp only []; rw [ha]; exact h.added k, h.home, fun k s hk => ?_, ?_, h.asked, h.off⟩
    · simp only []
      rw [htake]
      exact h.told k s hk
    · simp only []
      rw [hmore, List.length_append]
      have := h.bound
      omega
  | deliver hl k p s hd hk =>
    have hlt := (List.getElem?_eq_some_iff.mp hd).1
    have htake : A.trackers.found.take (A.delivered + 1) = A.trackers.found.take A.delivered ++ [(k, p)] := by
      rw [List.take_add_one, hd]
      rfl
    have hto : ∀ j, messagesTo j (A.trackers.found.take (A.delivered + 1)) = messagesTo j (A.trackers.found.take A.delivered) ++ if k = j then [p] else [] := by
      intro j
      rw [htake]
      simp only [messagesTo, List.filter_append, List.map_append, List.filter_cons, List.filter_nil, beq_iff_eq]
      split <;> rfl
    have hkl := (List.getElem?_eq_some_iff.mp hk).1
    refine ⟨h.trackers, fun j => ?_, by simp [h.home], fun j s' hj => ?_, hlt, fun j s' hj => ?_, fun e => absurd e hl⟩
    · rw [h.added j]
      simp only []
      by_cases hjk : k = j
      · subst hjk
        rw [List.getElem?_set_self hkl, hk]
        rfl
      · rw [List.getElem?_set_ne hjk]
    · simp only [] at hj ⊢
      rw [hto j]
      by_cases hjk : k = j
      · subst hjk
        rw [List.getElem?_set_self hkl] at hj
        cases hj
        rw [if_pos rfl, ← h.told k s hk]
        exact told_append _ [.found p]
      · rw [List.getElem?_set_ne hjk] at hj
        rw [if_neg hjk, List.append_nil]
        exact h.told j s' hj
    · simp only [] at hj
      by_cases hjk : k = j
      · subst hjk
        rw [List.getElem?_set_self hkl] at hj
        cases hj
        have ha := h.asked k s hk
        have e : Sys.told { s.sys with fs := A.proc.fs, mail := s.sys.mail ++ [.found p] } = s.sys.told ++ [p] := told_append _ [.found p]
        refine ⟨fun q hq => ?_, fun r hr => ?_, fun en pc i hi => ?_⟩
        · obtain ⟨x, hx, ex⟩ := ha.peers q hq
          exact ⟨x, by rw [e]; exact List.mem_append_left _ hx, ex⟩
        · obtain ⟨x, hx, ex⟩ := ha.requests r hr
          exact ⟨x, by rw [e]; exact List.mem_append_left _ hx, ex⟩
        · obtain ⟨x, hx, ex⟩ := ha.success en pc i (by simpa using hi)
          exact ⟨x, by rw [e]; exact List.mem_append_left _ hx, ex⟩
      · rw [List.getElem?_set_ne hjk] at hj
        exact h.asked j s' hj
  | stick k h' s p rest => exact ⟨h.trackers, h.added, h.home, h.told, h.bound, h.asked, h.off⟩
  | stop P' hp hr =>
    refine ainv_off ?_
    by_cases hl : A.proc.log = none
    · have hs := h.off hl
      cases hp with
      | start => cases hr
      | log n hl' => rw [hl] at hl'; cases hl'
      | add hl' => exact absurd hl hl'
      | act k s t hk => rw [hs] at hk; cases hk
      | begin k s r ready info ws hk => rw [hs] at hk; cases hk
      | beginCrash k s r ready info hk => rw [hs] at hk; cases hk
      | part k s x xs fs hk => rw [hs] at hk; cases hk
      | partCrash k s x xs fs r ready hk => rw [hs] at hk; cases hk
      | «end» k s r ready hk => rw [hs] at hk; cases hk
      | stop => rfl
    · cases hp with
      | stop => rfl
      | start => cases hr
      | log => cases hr
      | _ => exact absurd hr hl

theorem ainv_steps {w : World} {Q : Info → Prop} {A A' : App} (hs : ASteps w Q A A') (h : AInv A) : AInv A' := by
  induction hs with
  | refl => exact h
  | tail _ h1 _ ih => exact ainv_step ih h1

/-- The process of the program takes a step of the process, or none. -/
theorem proc_step {w : World} {A A' : App} (h : AInv A) (hs : AStep w A A') : PStep w A.proc A'.proc ∨ A'.proc = A.proc := by
  cases hs with
  | start hl P' hp => exact .inl hp
  | work hl P' hp => exact .inl hp
  | add hl body infoHash hm => exact .inl (.add _ hl body infoHash hm)
  | track => exact .inr rfl
  | deliver hl k p s hd hk =>
    obtain ⟨r, -, -, bytes, hb⟩ := C73_messages_are_peers h.trackers (k, p) (List.mem_of_getElem? hd)
    exact .inl (.act _ k s _ hk (.announce _ bytes p hb) rfl)
  | stick => exact .inr rfl
  | stop P' hp => exact .inl hp

theorem proc_steps {w : World} {Q : Info → Prop} {A A' : App} (h : AInv A) (hs : ASteps w Q A A') : PSteps w Q A.proc A'.proc := by
  induction hs with
  | refl => exact .refl _
  | tail h0 h1 hq ih =>
    rcases proc_step (ainv_steps h0 h) h1 with hp | e
    · exact ih.tail hp hq
    · rw [e]
      exact ih

end RustBit
