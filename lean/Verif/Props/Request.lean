/-
C82: a request is enough to get the files.
-/
import Verif.Props.App
import Verif.Props.FromMagnet

namespace RustBit
open Spec

/-! ### Runs of a torrent in which it hears of no further peer -/

theorem reported_told (s : Sys) : peersReported s = s.told.length := by
  simp only [peersReported, Sys.told]
  induction s.handled ++ s.mail with
  | nil => rfl
  | cons m l ih => cases m <;> simp [ih]

theorem told_step {w : World} {s t : Sys} (h : Step w s t) : (∃ p, t.told = s.told ++ [p]) ∨ t.told = s.told := by
  cases h with
  | announce bytes p hp => exact .inl ⟨p, told_append s [.found p]⟩
  | take => exact .inr rfl
  | finishOk pre post r hb tcp f peerId piece hd =>
    have e := told_append s [.success r.endpoint piece r.idx]
    simp only [List.filterMap_cons, List.filterMap_nil, List.append_nil] at e
    exact .inr e
  | finishErr pre post r hb tcp f peerId er hd =>
    have e := told_append s [.failed r.endpoint r.idx]
    simp only [List.filterMap_cons, List.filterMap_nil, List.append_nil] at e
    exact .inr e
  | finishPanic => exact .inr rfl
  | write => exact .inr rfl
  | success en pc i rest hd hm => exact .inr (told_after s _ rest _ hm)
  | failed en i rest hd hm => exact .inr (told_after s _ rest _ hm)
  | collect p rest hd hm hi tcp f peerId room collected fs hh hc =>
    exact .inr (told_after s _ rest ((s.torrent.addPeer p).onCollected w.build collected) hm)
  | found p rest hd hm => exact .inr (told_after s _ rest _ hm)

theorem reported_le {w : World} {s t : Sys} (h : Steps w s t) : peersReported s ≤ peersReported t := by
  induction h with
  | refl => exact Nat.le_refl _
  | tail _ hs ih =>
    refine Nat.le_trans ih ?_
    rw [reported_told, reported_told]
    rcases told_step hs with ⟨p, e⟩ | e
    · rw [e, List.length_append]; omega
    · rw [e]; exact Nat.le_refl _

theorem quiet_step {w : World} {s t : Sys} (h : Step w s t) (hr : peersReported t = peersReported s) : t.told = s.told := by
  rcases told_step h with ⟨p, e⟩ | e
  · rw [reported_told, reported_told, e, List.length_append] at hr
    simp at hr
  · exact e

/-! ### They are runs of the program -/

theorem ASteps.trans {w : World} {Q : Info → Prop} {A B C : App} (h1 : ASteps w Q A B) (h2 : ASteps w Q B C) : ASteps w Q A C := by
  induction h2 with
  | refl => exact h1
  | tail _ hs hq ih => exact .tail ih hs hq

theorem _root_.Spec.OnSteps.trans {w : World} {Q : Info → Prop} {A B C : App} (h1 : OnSteps w Q A B) (h2 : OnSteps w Q B C) : OnSteps w Q A C := by
  induction h2 with
  | refl => exact h1
  | tail _ hs hq hl ih => exact .tail ih hs hq hl

theorem _root_.Spec.OnSteps.steps {w : World} {Q : Info → Prop} {A B : App} (h : OnSteps w Q A B) : ASteps w Q A B := by
  induction h with
  | refl => exact .refl _
  | tail _ hs hq hl ih => exact .tail ih hs hq

/-- A step that changes one torrent of the process. -/
theorem work_set {w : World} {A : App} {k : Nat} {x y : Slot} {P' : Proc} (hl : A.proc.log ≠ none) (hk : A.proc.slots[k]? = some x)
    (hst : PStep w A.proc P') (hlog : P'.log = A.proc.log) (hs : P'.slots = A.proc.slots.set k y) (ht : y.sys.told = x.sys.told) (hf : A.Free k) :
    AStep w A { A with proc := P' } := by
  refine .work A hl P' hst (by rw [hlog]; exact hl) (by rw [hs, List.length_set]) ?_
  intro j s s' h1 h2
  rw [hs] at h2
  by_cases hj : k = j
  · subst hj
    rw [List.getElem?_set_self (List.getElem?_eq_some_iff.mp hk).1] at h2
    rw [hk] at h1
    cases h1
    cases h2
    exact ⟨ht, fun _ => hf⟩
  · rw [List.getElem?_set_ne hj, h1] at h2
    cases h2
    exact ⟨rfl, fun h => absurd rfl h⟩

theorem writeAll_works {w : World} {Q : Info → Prop} {k : Nat} {sys : Sys} (ws : List FileWriter) : ∀ {A : App} {fs : FS}, A.proc.log ≠ none → A.Free k →
    A.proc.slots[k]? = some ⟨sys, some ws⟩ → (∀ s ∈ A.proc.slots, ∀ i, s.sys.torrent.info = some i → Q i) →
    (writeAllParts w.cwd A.proc.fs ws : Res Unit Unit × FS) = (.ok (), fs) →
    OnSteps w Q A { A with proc := { A.proc with slots := A.proc.slots.set k ⟨sys, some []⟩, fs } } := by
  induction ws with
  | nil =>
    intro A fs hl hf hk hq h
    simp only [writeAllParts, Prod.mk.injEq, true_and] at h
    subst h
    have : A.proc.slots.set k ⟨sys, some []⟩ = A.proc.slots := by
      obtain ⟨hlt, e⟩ := List.getElem?_eq_some_iff.mp hk
      rw [← e, List.set_getElem_self]
    rw [this]
    exact .refl _
  | cons x xs ih =>
    intro A fs hl hf hk hq h
    rw [writeAllParts] at h
    split at h
    · rename_i fs1 hx
      have hlt := (List.getElem?_eq_some_iff.mp hk).1
      have hq' : ∀ s ∈ A.proc.slots.set k ⟨sys, some xs⟩, ∀ i, s.sys.torrent.info = some i → Q i := by
        intro s hs i hi
        rcases List.mem_or_eq_of_mem_set hs with hs | rfl
        · exact hq s hs i hi
        · exact hq _ (List.mem_of_getElem? hk) i hi
      have st := work_set hl hk (PStep.part (w := w) A.proc k _ x xs fs1 hk rfl hx) rfl rfl rfl hf
      have := ih (A := { A with proc := { A.proc with slots := A.proc.slots.set k ⟨sys, some xs⟩, fs := fs1 } }) hl hf (by simp [hlt]) hq' h
      simp only [List.set_set] at this
      exact (OnSteps.tail (.refl _) st hq' hl).trans this
    · rename_i hno
      exact absurd h (by intro h'; exact hno _ (by rw [h']))

theorem alift_step {w : World} {Q : Info → Prop} {A : App} {k : Nat} {s t : Sys} (hl : A.proc.log ≠ none) (hf : A.Free k) (hat : At A.proc k s)
    (hst : Step w s t) (hrep : peersReported t = peersReported s) (hup : t.writerUp = true)
    (hknown : s.ready ≠ [] → s.torrent.info ≠ none) (hQ : ∀ x ∈ A.proc.slots, ∀ i, x.sys.torrent.info = some i → Q i)
    (hQt : ∀ i, t.torrent.info = some i → Q i) :
    ∃ P', OnSteps w Q A { A with proc := P' } ∧ At P' k t ∧ P'.log = A.proc.log ∧ (∀ x ∈ P'.slots, ∀ i, x.sys.torrent.info = some i → Q i) ∧
      ∀ j, j ≠ k → P'.slots[j]? = A.proc.slots[j]? := by
  have htold := quiet_step hst hrep
  obtain ⟨x, hk, rfl⟩ := hat
  have hlt := (List.getElem?_eq_some_iff.mp hk).1
  have qset : ∀ y : Slot, (∀ i, y.sys.torrent.info = some i → Q i) → ∀ z ∈ A.proc.slots.set k y, ∀ i, z.sys.torrent.info = some i → Q i := by
    intro y hy z hz i hi
    rcases List.mem_or_eq_of_mem_set hz with hz | rfl
    · exact hQ z hz i hi
    · exact hy i hi
  by_cases hw : t.written = x.written
  · have st := work_set hl hk (PStep.act (w := w) A.proc k _ t hk hst hw) rfl rfl htold hf
    exact ⟨_, .tail (.refl _) st (qset _ hQt) hl, ⟨t, by simp [hlt], rfl⟩, rfl, qset _ hQt, fun j hj => List.getElem?_set_ne (Ne.symm hj)⟩
  · cases hst with
    | write r ready hu hr res fs' hwr =>
      have hr' : x.ready = r :: ready := hr
      cases hi : x.torrent.info with
      | none => exact absurd hi (hknown (by rw [hr]; simp))
      | some info =>
        have hres : res = .ok () := by
          cases res with
          | ok u => rfl
          | err e => cases hup
          | panic => cases hup
          | hang => cases hup
        subst hres
        unfold writePiece at hwr
        cases hg : (getFileWriters w.build r.files r.piece r.idx r.pieceLength : Res Unit (List FileWriter)) with
        | ok ws =>
          rw [hg] at hwr
          simp only [] at hwr
          have st := work_set hl hk (PStep.begin (w := w) A.proc k _ r ready info ws hk rfl hu hr' hi hg) rfl rfl rfl hf
          have q1 := qset ⟨x, some ws⟩ (fun i h => hQ _ (List.mem_of_getElem? hk) i h)
          have s2 := writeAll_works (w := w) (Q := Q) (k := k) (sys := x) ws
            (A := { A with proc := ⟨A.proc.slots.set k ⟨x, some ws⟩, A.proc.fs, A.proc.taken ++ [(info, r)], A.proc.log, A.proc.said⟩ }) hl hf (by simp [hlt]) q1 hwr
          simp only [List.set_set] at s2
          have s3 := work_set (A := { A with proc := ⟨A.proc.slots.set k ⟨x, some []⟩, fs', A.proc.taken ++ [(info, r)], A.proc.log, A.proc.said⟩ }) (k := k) (x := ⟨x, some []⟩) hl (by simp [hlt])
            (PStep.end (w := w) ⟨A.proc.slots.set k ⟨x, some []⟩, fs', A.proc.taken ++ [(info, r)], A.proc.log, A.proc.said⟩ k ⟨x, some []⟩ r ready (by simp [hlt]) rfl hr')
            rfl rfl rfl hf
          simp only [List.set_set] at s3
          have q3 := qset (Slot.done ⟨x, some []⟩ r ready true) hQt
          exact ⟨_, ((OnSteps.tail (.refl _) st q1 hl).trans s2).trans (.tail (.refl _) s3 q3 hl), ⟨{ x with ready, written := x.written ++ [r], writerUp := true }, by simp [hlt, Slot.done], rfl⟩, rfl,
            q3, fun j hj => List.getElem?_set_ne (Ne.symm hj)⟩
        | err e => rw [hg] at hwr; cases hwr
        | panic => rw [hg] at hwr; cases hwr
        | hang => rw [hg] at hwr; cases hwr
    | announce => exact absurd rfl hw
    | take => exact absurd rfl hw
    | finishOk => exact absurd rfl hw
    | finishErr => exact absurd rfl hw
    | finishPanic => exact absurd rfl hw
    | success => exact absurd rfl hw
    | failed => exact absurd rfl hw
    | collect => exact absurd rfl hw
    | found => exact absurd rfl hw

theorem alift_steps {w : World} {Q : Info → Prop} {A : App} {k : Nat} {s t : Sys} (hl : A.proc.log ≠ none) (hf : A.Free k) (hr : Among w s)
    (hat : At A.proc k s) (hst : Steps w s t) : peersReported t = peersReported s →
    t.writerUp = true → (∀ x ∈ A.proc.slots, ∀ i, x.sys.torrent.info = some i → Q i) → (∀ i, t.torrent.info = some i → Q i) →
    ∃ P', OnSteps w Q A { A with proc := P' } ∧ At P' k t ∧ P'.log = A.proc.log ∧ (∀ x ∈ P'.slots, ∀ i, x.sys.torrent.info = some i → Q i) ∧
      ∀ j, j ≠ k → P'.slots[j]? = A.proc.slots[j]? := by
  induction hst with
  | refl => exact fun _ _ hQ _ => ⟨A.proc, .refl _, hat, rfl, hQ, fun _ _ => rfl⟩
  | @tail u v hs hst ih =>
    intro hrep hup hQ hQt
    have h1 := reported_le hs
    have h2 := reported_le (Steps.single hst)
    have hru := among_steps hr hs
    obtain ⟨P1, p1, p2, p3, p4, p5⟩ := ih (by omega) (up_before hst hup) hQ (fun i hi => hQt i (C45_fixed hru hi (.single hst)).1)
    obtain ⟨P2, q1, q2, q3, q4, q5⟩ := alift_step (A := { A with proc := P1 }) (by rw [p3]; exact hl) hf p2 hst (by omega) hup (ready_known hru) p4 hQt
    exact ⟨P2, p1.trans q1, q2, by rw [q3, p3], q4, fun j hj => (q5 j hj).trans (p5 j hj)⟩

/-! ### The trackers -/

/-- What a tracker may answer: eleven peers. -/
def elevenPeers : UdpNet := answers [] (List.replicate 20 0 ++ (List.replicate 11 [1, 2, 3, 4, 0, 80]).flatten)

theorem elevenPeers_answers {k : Nat} {u : TrackerUrl} (hk : builtinUrls[k]? = some u) (hash : Bytes) :
    (getPeersByTracker elevenPeers (fun _ => .failed) [] u hash).1 = .ok (List.replicate 11 peer0) := by
  obtain ⟨h, p, e⟩ := builtin_lookup hk
  rw [e]
  unfold getPeersByTracker
  rw [if_neg (by simp), if_pos rfl]
  have := udpCall_answers [] (List.replicate 20 0 ++ (List.replicate 11 [1, 2, 3, 4, 0, 80]).flatten) hash [] h p u.asStr
  rw [if_pos (by decide +kernel)] at this
  unfold elevenPeers
  generalize udpCall _ hash [] _ = y at this
  obtain ⟨r, s⟩ := y
  simp only at this
  subst this
  have e2 : PeerEndpoint.fromBytes ((((List.replicate 20 0 ++ (List.replicate 11 [1, 2, 3, 4, 0, 80]).flatten : Bytes)).take 4000).drop 20) = List.replicate 11 peer0 := by
    decide +kernel
  show Res.ok _ = _
  rw [e2]

theorem forward_eleven : forwardLoop (fun _ _ => true) 0 (List.replicate 11 peer0) = List.replicate 11 peer0 := by decide +kernel

/-- The trackers in `P` that are up stay so, and everything they are to look up, or may get to look up, is still to be looked up. -/
def StillAsked (P : Nat → Prop) (T T' : Trackers) : Prop :=
  ∀ m, P m → ∀ t, T.trackers[m]? = some t → t.up = true → ∃ t', T'.trackers[m]? = some t' ∧ t'.up = true ∧
    ∀ r ∈ T.mail ++ (t.mail ++ t.pending), r ∈ T'.mail ++ (t'.mail ++ t'.pending)

theorem StillAsked.refl (P : Nat → Prop) (T : Trackers) : StillAsked P T T := fun _ _ t ht hu => ⟨t, ht, hu, fun _ hr => hr⟩

theorem StillAsked.trans {P : Nat → Prop} {T U V : Trackers} (h1 : StillAsked P T U) (h2 : StillAsked P U V) : StillAsked P T V := by
  intro m hm t ht hu
  obtain ⟨u, a1, a2, a3⟩ := h1 m hm t ht hu
  obtain ⟨v, b1, b2, b3⟩ := h2 m hm u a1 a2
  exact ⟨v, b1, b2, fun r hr => b3 r (a3 r hr)⟩

theorem still_pass {P : Nat → Prop} {T : Trackers} {r : Registered} {rest : List Registered} (hm : T.mail = r :: rest) (passed : List Registered) :
    StillAsked P T { T with mail := rest, trackers := offered r T.trackers, passed } := by
  intro m _ t ht hu
  have hg := offered_get r ht
  rw [if_pos hu] at hg
  refine ⟨_, hg, hu, fun x hx => ?_⟩
  rw [hm] at hx
  simp only [List.mem_append, List.mem_cons, List.mem_singleton] at hx ⊢
  rcases hx with (rfl | h) | h | h
  · exact .inr (.inl (.inr (.inl rfl)))
  · exact .inl h
  · exact .inr (.inl (.inl h))
  · exact .inr (.inr h)

theorem still_spawn {P : Nat → Prop} {T : Trackers} {k : Nat} {t : TrackerSys} {r : Registered} {rest : List Registered} (hk : T.trackers[k]? = some t)
    (hm : t.mail = r :: rest) (spawned : List Registered) :
    StillAsked P T { T with trackers := T.trackers.set k { t with mail := rest, pending := t.pending ++ [r], spawned } } := by
  intro m _ u hu1 hu2
  by_cases e : k = m
  · subst e
    rw [hk] at hu1
    cases hu1
    refine ⟨_, List.getElem?_set_self (List.getElem?_eq_some_iff.mp hk).1, hu2, fun x hx => ?_⟩
    rw [hm] at hx
    simp only [List.mem_append, List.mem_cons, List.mem_singleton] at hx ⊢
    rcases hx with h | (rfl | h) | h
    · exact .inl h
    · exact .inr (.inr (.inr (.inl rfl)))
    · exact .inr (.inl h)
    · exact .inr (.inr (.inl h))
  · exact ⟨u, by rw [List.getElem?_set_ne e]; exact hu1, hu2, fun x hx => hx⟩

theorem still_set {P : Nat → Prop} {T T' : Trackers} {k : Nat} {t : TrackerSys} (hP : ¬ P k) (hm : T'.mail = T.mail) (ht : T'.trackers = T.trackers.set k t) :
    StillAsked P T T' := by
  intro m hPm u hu1 hu2
  exact ⟨u, by rw [ht, List.getElem?_set_ne (show k ≠ m from fun e => hP (e ▸ hPm))]; exact hu1, hu2, fun x hx => by rw [hm]; exact hx⟩

/-- What is in the mailbox of the interface actor gets to a tracker that is up. -/
theorem pass_until {r : Registered} {j : Nat} : ∀ (pre : List Registered) {T : Trackers} {t : TrackerSys} {post : List Registered}, T.mail = pre ++ r :: post →
    T.trackers[j]? = some t → t.up = true → ∃ T' t', TSteps T T' ∧ T'.added = T.added ∧ T'.found = T.found ∧ T'.trackers[j]? = some t' ∧ t'.up = true ∧
      t'.url = t.url ∧ r ∈ t'.mail ∧ ∀ P, StillAsked P T T' := by
  intro pre
  induction pre with
  | nil =>
    intro T t post hm hj hu
    have h1 := TStep.pass T r post _ hm (offerAll_offered r T.trackers)
    have hg := offered_get r hj
    rw [if_pos hu] at hg
    exact ⟨_, _, .tail (.refl _) h1, rfl, rfl, hg, hu, rfl, by simp, fun P => still_pass hm _⟩
  | cons x pre ih =>
    intro T t post hm hj hu
    have h1 := TStep.pass T x (pre ++ r :: post) _ hm (offerAll_offered x T.trackers)
    have hg := offered_get x hj
    rw [if_pos hu] at hg
    obtain ⟨T', t', a1, a2, a3, a4, a5, a6, a7, a8⟩ := ih (T := ⟨pre ++ r :: post, offered x T.trackers, T.added, T.passed ++ [x], T.found, T.log⟩) rfl hg hu
    exact ⟨T', t', tsteps_trans (.tail (.refl _) h1) a1, a2, a3, a4, a5, a6, a7, fun P => (still_pass hm _).trans (a8 P)⟩

/-- A tracker gets to what is in its mailbox. -/
theorem spawn_until {r : Registered} {j : Nat} : ∀ (pre : List Registered) {T : Trackers} {t : TrackerSys} {post : List Registered},
    T.trackers[j]? = some t → t.up = true → t.mail = pre ++ r :: post → ∃ T' t', TSteps T T' ∧ T'.added = T.added ∧ T'.found = T.found ∧
      T'.trackers[j]? = some t' ∧ t'.up = true ∧ t'.url = t.url ∧ r ∈ t'.pending ∧ ∀ P, StillAsked P T T' := by
  intro pre
  induction pre with
  | nil =>
    intro T t post hj hu hm
    have h1 := TStep.spawn T j t r post hj hu hm
    exact ⟨_, _, .tail (.refl _) h1, rfl, rfl, List.getElem?_set_self (List.getElem?_eq_some_iff.mp hj).1, hu, rfl, by simp,
      fun P => still_spawn hj hm _⟩
  | cons x pre ih =>
    intro T t post hj hu hm
    have h1 := TStep.spawn T j t x _ hj hu hm
    obtain ⟨T', t', a1, a2, a3, a4, a5, a6, a7, a8⟩ := ih (T := { T with trackers := T.trackers.set j { t with mail := pre ++ r :: post, pending := t.pending ++ [x], spawned := t.spawned ++ [x] } })
      (List.getElem?_set_self (List.getElem?_eq_some_iff.mp hj).1) hu rfl
    exact ⟨T', t', tsteps_trans (.tail (.refl _) h1) a1, a2, a3, a4, a5, a6, a7, fun P => (still_spawn hj hm _).trans (a8 P)⟩

/-- A tracker that is up can name eleven peers for a torrent that has been added. -/
theorem tracker_tells {T : Trackers} (h : TSteps Trackers.init T) {r : Registered} (hr : r ∈ T.mail) {j : Nat} {t : TrackerSys} (hj : T.trackers[j]? = some t)
    (hu : t.up = true) : ∃ T', TSteps T T' ∧ T'.added = T.added ∧ T'.found = T.found ++ List.replicate 11 (r.torrent, peer0) ∧
      (∃ t ∈ T'.trackers, t.up = true) ∧ StillAsked (· ≠ j) T T' := by
  obtain ⟨pre, post, hm⟩ := List.append_of_mem hr
  obtain ⟨T1, t1, a1, a2, a3, a4, a5, a6, a7, a8⟩ := pass_until pre hm hj hu
  obtain ⟨pre, post, hm⟩ := List.append_of_mem a7
  obtain ⟨T2, t2, b1, b2, b3, b4, b5, b6, b7, b8⟩ := spawn_until pre a4 a5 hm
  obtain ⟨pre, post, hm⟩ := List.append_of_mem b7
  have hi := tinv_steps (tsteps_trans h (tsteps_trans a1 b1)) tinv_init
  have hurl : builtinUrls[j]? = some t2.url := by
    rw [← hi.urls, List.getElem?_map, b4]
    rfl
  have st := TStep.answer T2 j t2 pre post r b4 b5 hm elevenPeers (fun _ => .failed) (fun _ _ => true) [] _ _ (Prod.ext (elevenPeers_answers hurl r.infoHash) rfl)
  refine ⟨_, tsteps_trans a1 (tsteps_trans b1 (.tail (.refl _) st)), ?_, ?_,
    ⟨_, List.mem_of_getElem? (List.getElem?_set_self (List.getElem?_eq_some_iff.mp b4).1), b5⟩,
    ((a8 _).trans (b8 _)).trans (still_set (fun e => e rfl) rfl rfl)⟩
  · show T2.added = _
    rw [b2, a2]
  · show T2.found ++ _ = _
    rw [b3, a3, forward_eleven, List.map_replicate]

/-- Steps of the trackers are steps of the program. -/
theorem track_steps {w : World} {Q : Info → Prop} {A : App} (hl : A.proc.log ≠ none) (hQ : ∀ x ∈ A.proc.slots, ∀ i, x.sys.torrent.info = some i → Q i)
    {T' : Trackers} (h : TSteps A.trackers T') : T'.added = A.trackers.added → OnSteps w Q A { A with trackers := T' } := by
  generalize hT : A.trackers = T at h
  induction h with
  | refl => subst hT; exact fun _ => .refl _
  | @tail U V h hs ih =>
    intro ha
    obtain ⟨m1, e1⟩ := added_steps h
    obtain ⟨m2, e2⟩ := added_step hs
    have hm : m1 ++ m2 = [] := by
      have : T.added ++ (m1 ++ m2) = T.added := by rw [← List.append_assoc, ← e1, ← e2, ha]
      exact List.append_right_eq_self.mp this
    obtain ⟨rfl, rfl⟩ := List.append_eq_nil_iff.mp hm
    rw [List.append_nil] at e1 e2
    exact .tail (ih e1) (.track { A with trackers := U } hl V hs e2) hQ hl

/-! ### Delivery -/

/-- What a torrent is like after some messages have been delivered. -/
def Delivered (x y : Slot) (l : List PeerEndpoint) : Prop := y.parts = x.parts ∧ ∃ fs, y.sys = { x.sys with fs, mail := x.sys.mail ++ l.map .found }

theorem deliver_all {w : World} {Q : Info → Prop} : ∀ (n : Nat) {A : App}, AInv A → A.proc.log ≠ none →
    (∀ x ∈ A.proc.slots, ∀ i, x.sys.torrent.info = some i → Q i) → A.trackers.found.length - A.delivered = n →
    ∃ slots, OnSteps w Q A { A with proc := { A.proc with slots }, delivered := A.trackers.found.length } ∧
      (∀ x ∈ slots, ∀ i, x.sys.torrent.info = some i → Q i) ∧
      ∀ (k : Nat) (x : Slot), A.proc.slots[k]? = some x → ∃ y l, slots[k]? = some y ∧ Delivered x y l := by
  intro n
  induction n with
  | zero =>
    intro A h hl hQ hn
    have : A.delivered = A.trackers.found.length := by
      have := h.bound
      omega
    refine ⟨A.proc.slots, ?_, hQ, fun k x hk => ⟨x, [], hk, rfl, x.sys.fs, by simp⟩⟩
    rw [← this]
    exact .refl _
  | succ n ih =>
    intro A h hl hQ hn
    have hlt : A.delivered < A.trackers.found.length := by omega
    have hg : A.trackers.found[A.delivered]? = some (A.trackers.found[A.delivered].1, A.trackers.found[A.delivered].2) := List.getElem?_eq_getElem hlt
    obtain ⟨r, hr, e, -⟩ := C73_messages_are_peers h.trackers _ (List.getElem_mem hlt)
    generalize A.trackers.found[A.delivered] = x at hg e
    obtain ⟨k, p⟩ := x
    obtain ⟨i, hir⟩ := List.getElem?_of_mem hr
    have ha := h.added i
    rw [hir] at ha
    cases hs : A.proc.slots[i]? with
    | none => rw [hs] at ha; cases ha
    | some s =>
      rw [hs, Option.map_some, Option.some.injEq] at ha
      have e1 : k = i := by
        have e : k = r.torrent := e
        rw [e, ha]
      subst e1
      have hkl := (List.getElem?_eq_some_iff.mp hs).1
      have st := AStep.deliver (w := w) A hl k p s hg hs
      have hQ' : ∀ x ∈ A.proc.slots.set k ⟨{ s.sys with fs := A.proc.fs, mail := s.sys.mail ++ [.found p] }, s.parts⟩, ∀ i, x.sys.torrent.info = some i → Q i := by
        intro x hx i hi
        rcases List.mem_or_eq_of_mem_set hx with hx | rfl
        · exact hQ x hx i hi
        · exact hQ s (List.mem_of_getElem? hs) i hi
      obtain ⟨slots, a1, a2, a3⟩ := ih (ainv_step h st) hl hQ' (by show A.trackers.found.length - (A.delivered + 1) = n; omega)
      refine ⟨slots, (OnSteps.tail (.refl _) st hQ' hl).trans a1, a2, ?_⟩
      intro j x hj
      by_cases hjk : k = j
      · subst hjk
        rw [hs] at hj
        cases hj
        obtain ⟨y, l, b1, b2, fs, b3⟩ := a3 k _ (List.getElem?_set_self hkl)
        refine ⟨y, p :: l, b1, b2, fs, ?_⟩
        rw [b3]
        simp
      · obtain ⟨y, l, b⟩ := a3 j x (by simp only [List.getElem?_set_ne hjk]; exact hj)
        exact ⟨y, l, b⟩

/-! ### The torrent -/

theorem announce_all {w : World} {infoHash : Bytes} {fs : FS} : ∀ (l : List PeerEndpoint), (∀ p ∈ l, ∃ bytes, p ∈ PeerEndpoint.fromBytes bytes) →
    Steps w (Sys.init infoHash fs) { Sys.init infoHash fs with mail := l.map .found } := by
  intro l
  generalize hn : l.length = n
  induction n generalizing l with
  | zero =>
    intro _
    rw [List.length_eq_zero_iff.mp hn]
    exact .refl _
  | succ n ih =>
    intro h
    rcases List.eq_nil_or_concat l with rfl | ⟨l', p, rfl⟩
    · cases hn
    · rw [List.concat_eq_append] at hn h ⊢
      obtain ⟨bytes, hb⟩ := h p (by simp)
      have h1 := ih l' (by simpa using hn) (fun q hq => h q (by simp [hq]))
      have h2 := Step.announce (w := w) { Sys.init infoHash fs with mail := l'.map .found } bytes p hb
      simp only [List.map_append, List.map_cons, List.map_nil]
      exact .tail h1 h2

/-- The metadata of the torrent can be had: it is in the cache, or it is not and there are peers to serve it. -/
def Gettable (w : World) (infoHash : Bytes) (info : Info) (fs : FS) : Prop :=
  (NotCached fs w.cwd infoHash ∧ ∃ net f, getInfo w.build (.connected net) f [] infoHash = .ok info) ∨ (Cached fs w.cwd infoHash info ∧ Typed info)

theorem collect_mail {w : World} {infoHash : Bytes} {fs : FS} {info : Info} {n : Nat} (hlen : 2 < infoHash.length) (hget : Gettable w infoHash info fs)
    (htot : (pieceTotal w.build info : Res Unit Nat) = .ok n) {p : PeerEndpoint} {l : List PeerEndpoint}
    (hl : ∀ q ∈ p :: l, ∃ bytes, q ∈ PeerEndpoint.fromBytes bytes) :
    ∃ t, Steps w { Sys.init infoHash fs with mail := (p :: l).map .found } t ∧ t.torrent.info = some info ∧ t.lost = [] ∧
      peersReported t = peersReported { Sys.init infoHash fs with mail := (p :: l).map .found } ∧ t.mail = l.map .found ∧
      t.torrent.peers.length = 1 ∧ ∀ G, AllGood G t := by
  have hg : ∀ G, AllGood G { Sys.init infoHash fs with mail := (p :: l).map .found } := by
    intro G
    refine ⟨fun e pc i hx => ?_, fun r hr => (by cases hr)⟩
    obtain ⟨q, -, hq⟩ := List.mem_map.mp hx
    cases hq
  rcases hget with ⟨hnc, hserve⟩ | ⟨hc, ht⟩
  · obtain ⟨t, h1, h2, -, h4, h5, h6, h7, h8⟩ := get_metadata_mail hlen hnc hserve htot (announce_all (p :: l) hl) rfl rfl (by simp)
    exact ⟨t, h1, h2, h4, h5, h6, h7, fun G => h8 G (hg G)⟩
  · refine ⟨_, .single (.collect { Sys.init infoHash fs with mail := (p :: l).map .found } p (l.map .found) rfl rfl rfl (fun _ => none) 0 [] 0
      (.ok (some info)) fs (by simp) (collect_on hlen ht hc _ _ _ _)), ?_, rfl,
      reported_after { Sys.init infoHash fs with mail := (p :: l).map .found } _ (l.map .found)
        (((Sys.init infoHash fs).torrent.addPeer p).onCollected w.build (.ok (some info))) rfl, rfl, ?_, ?_⟩
    · simp only [Sys.after, Torrent.onCollected, htot]
    · simp only [Sys.after, Torrent.onCollected, htot]
      rfl
    · intro G
      refine allGood_same (hg G) ?_ ?_
      · intro e p i hx
        exact List.mem_cons_of_mem _ hx
      · intro r hr
        simp only [Sys.after, Torrent.onCollected, htot, List.append_nil] at hr
        exact hr

theorem finish_mail {w : World} {infoHash : Bytes} {fs : FS} {info : Info} {d : Bytes} (hsha : ∀ b, (w.sha b).length = 20) (hlen : 2 < infoHash.length)
    (hget : Gettable w infoHash info fs) (hd : Describes w.sha info d) (hfit : Fits info d) (hpos : 0 < d.length)
    (hlay : Placeable w.cwd fs (listedFiles info) d info.pieceLength) (hdl : ∀ f ∈ listedFiles info, f.path.head? ≠ some b!"downloads")
    {l : List PeerEndpoint} (hl : ∀ q ∈ l, ∃ bytes, q ∈ PeerEndpoint.fromBytes bytes) (h11 : 11 ≤ l.length) :
    ∃ t, Steps w { Sys.init infoHash fs with mail := l.map .found } t ∧
      peersReported t = peersReported { Sys.init infoHash fs with mail := l.map .found } ∧ t.writerUp = true ∧ t.torrent.info = some info ∧
      flight t = [] ∧ t.lost = [] ∧ t.ready = [] ∧ (∀ i, i < pieceCount d.length info.pieceLength → i ∈ t.written.map Ready.idx) ∧
      FilesOver fs t.fs w.cwd (listedFiles info) d := by
  have hn : (pieceTotal w.build info : Res Unit Nat) = .ok (pieceCount d.length info.pieceLength) := pieceTotal_of hd hfit.length hpos
  have hcount : 0 < pieceCount d.length info.pieceLength := Nat.div_pos (by have := hd.pieceLength; omega) hd.pieceLength
  cases l with
  | nil => simp at h11
  | cons p l =>
    obtain ⟨t, h1, h2, h3, h4, h5, h6, h7⟩ := collect_mail hlen hget hn hl
    have hst := (announce_all (w := w) (infoHash := infoHash) (fs := fs) (p :: l) hl).trans h1
    obtain ⟨n, hk⟩ := among_known (among_of hst) h2
    have hn' := known_count hk hd hfit.length
    obtain ⟨u, e1, e2, e3, e4, e5, e6⟩ := start_mail (by rw [hn']; exact hcount) _ t rfl hk
      (by rw [h6, h5, List.length_map]; simp at h11; omega) (by omega)
    have hsu := hst.trans e1
    obtain ⟨v, f1, f2, hini, f4, f5, f6⟩ := can_finish_over hsha hlen hd hfit hlay hdl hsu e3 e4 (by rw [e2, h3])
    have hg := f5 (e6 _ (h7 _))
    have hsv := hsu.trans f1
    have hup : v.writerUp = true := by
      rcases C66_always_partial hlen hd hlay hdl hsv f2 with ⟨r, hr, hne, -⟩ | ⟨h, -⟩
      · exact absurd (hg.2 r (List.mem_append_left _ hr)) hne
      · exact h
    rcases f6 with ⟨r, hr, hne, -⟩ | ⟨g1, g2, g3, g4⟩
    · exact absurd (hg.2 r (List.mem_append_left _ hr)) hne
    · refine ⟨v, (h1.trans e1).trans f1, by rw [f4, e5, h4], hup, f2, g1, g2, g3, ?_, g4⟩
      intro i hi
      have hcl : contentLength info = d.length := by rw [contentLength_listed, hd.total]
      have := C43_all_handed_partial (among_of (hsv)) f2 (.inr (by rw [hcl]; exact hfit.length)) hini g2 g1
      have hm := this.mem_iff.mpr (List.mem_range.mpr (by rw [count, hcl]; exact hi))
      simp only [handed, g3, List.append_nil] at hm
      exact hm

theorem found_peers (l : List PeerEndpoint) : ((l.map Mail.found).filterMap (fun m => match m with | .found p => some p | _ => none)) = l := by
  induction l with
  | nil => rfl
  | cons p l ih => simp only [List.map_cons, List.filterMap_cons, ih]

/-! ### C82 -/

/-- After a request the torrent can hear of eleven peers and more, without doing anything; all trackers but one still have to look it up.
The last eleven are the same. -/
theorem request_heard_all {w : World} {Q : Info → Prop} {A : App} {body infoHash : Bytes} (hinv : AInv A)
    (hQ : ∀ x ∈ A.proc.slots, ∀ i, x.sys.torrent.info = some i → Q i)
    (hrun : A.proc.log ≠ none) (hup : ∃ t ∈ A.trackers.trackers, t.up = true) {thread : Nat} (hb : thread < A.threads) (hf : thread ∉ A.stuck)
    (ha : addMagnet w.build body = (.ok, some infoHash)) :
    ∃ A' y l, OnSteps w Q A A' ∧ A'.proc.log = A.proc.log ∧ A'.proc.fs = A.proc.fs ∧ A'.stuck = A.stuck ∧ A'.threads = A.threads ∧
      A'.home = A.home ++ [thread] ∧ A'.proc.slots.length = A.proc.slots.length + 1 ∧ (∃ t ∈ A'.trackers.trackers, t.up = true) ∧
      A'.proc.slots[A.proc.slots.length]? = some y ∧ Delivered ⟨Sys.init infoHash A.proc.fs, none⟩ y l ∧ l = messagesTo A.proc.slots.length A.trackers.found ++ List.replicate 11 peer0 ∧
      (∀ q ∈ l, ∃ bytes, q ∈ PeerEndpoint.fromBytes bytes) ∧
      (∀ (k : Nat) (x : Slot), A.proc.slots[k]? = some x → ∃ y l, A'.proc.slots[k]? = some y ∧ Delivered x y l) ∧
      ∃ j : Nat, ∀ m, m ≠ j → ∀ t : TrackerSys, A.trackers.trackers[m]? = some t → t.up = true → ∃ t' : TrackerSys, A'.trackers.trackers[m]? = some t' ∧ t'.up = true ∧
        (⟨infoHash, A.proc.slots.length⟩ : Registered) ∈ A'.trackers.mail ++ (t'.mail ++ t'.pending) := by
  generalize hk : A.proc.slots.length = k
  -- the request
  have st1 := AStep.add (w := w) A hrun body infoHash ha thread hb hf _ (.add A.trackers ⟨infoHash, A.proc.slots.length⟩) rfl
  generalize hA1 : ({ A with proc := _, trackers := _, home := _ } : App) = A1 at st1
  have hinv1 := ainv_step hinv st1
  have hslots1 : A1.proc.slots = A.proc.slots ++ [⟨Sys.init infoHash A.proc.fs, none⟩] := by rw [← hA1]
  have hlog1 : A1.proc.log = A.proc.log := by rw [← hA1]
  have hfs1 : A1.proc.fs = A.proc.fs := by rw [← hA1]
  have hstuck1 : A1.stuck = A.stuck := by rw [← hA1]
  have hthr1 : A1.threads = A.threads := by rw [← hA1]
  have hhome1 : A1.home = A.home ++ [thread] := by rw [← hA1]
  have htr1 : A1.trackers.trackers = A.trackers.trackers := by rw [← hA1]
  have hfound1 : A1.trackers.found = A.trackers.found := by rw [← hA1]
  have hmail1 : (⟨infoHash, k⟩ : Registered) ∈ A1.trackers.mail := by rw [← hA1, ← hk]; simp
  have hQ1 : ∀ x ∈ A1.proc.slots, ∀ i, x.sys.torrent.info = some i → Q i := by
    intro x hx i hi
    rw [hslots1] at hx
    rcases List.mem_append.mp hx with hx | hx
    · exact hQ x hx i hi
    · rw [List.mem_singleton.mp hx] at hi
      cases hi
  have hrun1 : A1.proc.log ≠ none := by rw [hlog1]; exact hrun
  have s1 : OnSteps w Q A A1 := .tail (.refl _) st1 hQ1 hrun1
  clear hA1 st1
  have hget1 : A1.proc.slots[k]? = some ⟨Sys.init infoHash A.proc.fs, none⟩ := by
    rw [hslots1, List.getElem?_append_right (by omega), hk, Nat.sub_self]
    rfl
  -- the trackers
  obtain ⟨t, ht, hut⟩ := hup
  rw [← htr1] at ht
  obtain ⟨j, hj⟩ := List.getElem?_of_mem ht
  obtain ⟨T', b1, b2, b3, b4, b5⟩ := tracker_tells hinv1.trackers hmail1 hj hut
  have s2 := track_steps (w := w) (Q := Q) hrun1 hQ1 b1 b2
  have hinv2 := ainv_steps s2.steps hinv1
  -- delivery
  obtain ⟨slots, s3, hQ3, c3⟩ := deliver_all (w := w) (Q := Q) _ (A := { A1 with trackers := T' }) hinv2 hrun1 hQ1 rfl
  have hinv3 := ainv_steps s3.steps hinv2
  obtain ⟨y, l, d1, d2, fs', d3⟩ := c3 k _ hget1
  have htold := hinv3.told k y d1
  simp only [List.take_length] at htold
  have hl : l = messagesTo k T'.found := by
    rw [← htold, d3]
    exact ((told_append (Sys.init infoHash A.proc.fs) (l.map .found)).trans (found_peers l)).symm
  have hrep : messagesTo k T'.found = messagesTo k A1.trackers.found ++ List.replicate 11 peer0 := by
    rw [b3, messagesTo, List.filter_append, List.map_append, messagesTo]
    have : ((List.replicate 11 (k, peer0)).filter fun x => x.1 == k) = List.replicate 11 (k, peer0) := by
      rw [List.filter_replicate]
      simp
    rw [this, List.map_replicate]
  have hpeers : ∀ q ∈ l, ∃ bytes, q ∈ PeerEndpoint.fromBytes bytes := by
    intro q hq
    rw [hl] at hq
    obtain ⟨x, hx, rfl⟩ := List.mem_map.mp hq
    obtain ⟨r, -, -, hb⟩ := C73_messages_are_peers hinv2.trackers x (List.mem_filter.mp hx).1
    exact hb
  have hlen : slots.length = k + 1 := by
    have h1 := hinv3.home
    have h2 := hinv.home
    simp only [hhome1, List.length_append, List.length_singleton] at h1
    omega
  refine ⟨_, y, l, (s1.trans s2).trans s3, hlog1, hfs1, hstuck1, hthr1, hhome1, hlen, b4, d1, ⟨d2, fs', d3⟩, by rw [hl, hrep, hfound1], hpeers, ?_,
    j, fun m hm t ht hu => ?_⟩
  rotate_left
  · obtain ⟨t', e1, e2, e3⟩ := b5 m hm t (by rw [htr1]; exact ht) hu
    exact ⟨t', e1, e2, e3 _ (List.mem_append_left _ hmail1)⟩
  intro i x hx
  have hi : A1.proc.slots[i]? = some x := by
    rw [hslots1, List.getElem?_append_left (List.getElem?_eq_some_iff.mp hx).1]
    exact hx
  exact c3 i x hi

/-- As `request_heard_all`. -/
theorem request_heard' {w : World} {Q : Info → Prop} {A : App} {body infoHash : Bytes} (hinv : AInv A)
    (hQ : ∀ x ∈ A.proc.slots, ∀ i, x.sys.torrent.info = some i → Q i)
    (hrun : A.proc.log ≠ none) (hup : ∃ t ∈ A.trackers.trackers, t.up = true) {thread : Nat} (hb : thread < A.threads) (hf : thread ∉ A.stuck)
    (ha : addMagnet w.build body = (.ok, some infoHash)) :
    ∃ A' y l, OnSteps w Q A A' ∧ A'.proc.log = A.proc.log ∧ A'.proc.fs = A.proc.fs ∧ A'.stuck = A.stuck ∧ A'.threads = A.threads ∧
      A'.home = A.home ++ [thread] ∧ A'.proc.slots.length = A.proc.slots.length + 1 ∧ (∃ t ∈ A'.trackers.trackers, t.up = true) ∧
      A'.proc.slots[A.proc.slots.length]? = some y ∧ Delivered ⟨Sys.init infoHash A.proc.fs, none⟩ y l ∧ 11 ≤ l.length ∧ peer0 ∈ l ∧
      (∀ q ∈ l, ∃ bytes, q ∈ PeerEndpoint.fromBytes bytes) ∧
      (∀ (k : Nat) (x : Slot), A.proc.slots[k]? = some x → ∃ y l, A'.proc.slots[k]? = some y ∧ Delivered x y l) ∧
      ∃ j : Nat, ∀ m, m ≠ j → ∀ t : TrackerSys, A.trackers.trackers[m]? = some t → t.up = true → ∃ t' : TrackerSys, A'.trackers.trackers[m]? = some t' ∧ t'.up = true ∧
        (⟨infoHash, A.proc.slots.length⟩ : Registered) ∈ A'.trackers.mail ++ (t'.mail ++ t'.pending) := by
  obtain ⟨A', y, l, h1, h2, h3, h4, h5, h6, h7, h8, h9, h10, h11, h12, h13⟩ := request_heard_all hinv hQ hrun hup hb hf ha
  exact ⟨A', y, l, h1, h2, h3, h4, h5, h6, h7, h8, h9, h10, by rw [h11]; simp, by rw [h11]; simp, h12, h13⟩

/-- As `request_heard'`. -/
theorem request_heard {w : World} {Q : Info → Prop} {A : App} {body infoHash : Bytes} (hinv : AInv A)
    (hQ : ∀ x ∈ A.proc.slots, ∀ i, x.sys.torrent.info = some i → Q i)
    (hrun : A.proc.log ≠ none) (hup : ∃ t ∈ A.trackers.trackers, t.up = true) {thread : Nat} (hb : thread < A.threads) (hf : thread ∉ A.stuck)
    (ha : addMagnet w.build body = (.ok, some infoHash)) :
    ∃ A' y l, OnSteps w Q A A' ∧ A'.proc.log = A.proc.log ∧ A'.proc.fs = A.proc.fs ∧ A'.stuck = A.stuck ∧ A'.threads = A.threads ∧
      A'.home = A.home ++ [thread] ∧ A'.proc.slots.length = A.proc.slots.length + 1 ∧ (∃ t ∈ A'.trackers.trackers, t.up = true) ∧
      A'.proc.slots[A.proc.slots.length]? = some y ∧ Delivered ⟨Sys.init infoHash A.proc.fs, none⟩ y l ∧ 11 ≤ l.length ∧ peer0 ∈ l ∧
      (∀ q ∈ l, ∃ bytes, q ∈ PeerEndpoint.fromBytes bytes) ∧
      (∀ (k : Nat) (x : Slot), A.proc.slots[k]? = some x → ∃ y l, A'.proc.slots[k]? = some y ∧ Delivered x y l) := by
  obtain ⟨A', y, l, h1, h2, h3, h4, h5, h6, h7, h8, h9, h10, h11, h12, h13, h14, -⟩ := request_heard' hinv hQ hrun hup hb hf ha
  exact ⟨A', y, l, h1, h2, h3, h4, h5, h6, h7, h8, h9, h10, h11, h12, h13, h14⟩

theorem can_request' {w : World} {Q : Info → Prop} {A : App} {info : Info} {d body infoHash : Bytes} (hinv : AInv A)
    (hQ : ∀ x ∈ A.proc.slots, ∀ i, x.sys.torrent.info = some i → Q i) (hQi : Q info) (hsha : ∀ b, (w.sha b).length = 20)
    (hrun : A.proc.log ≠ none) (hup : ∃ t ∈ A.trackers.trackers, t.up = true) {thread : Nat} (hb : thread < A.threads) (hf : thread ∉ A.stuck)
    (ha : addMagnet w.build body = (.ok, some infoHash)) (hget : Gettable w infoHash info A.proc.fs) (hd : Describes w.sha info d) (hfit : Fits info d)
    (hpos : 0 < d.length) (hlay : Placeable w.cwd A.proc.fs (listedFiles info) d info.pieceLength)
    (hdl : ∀ f ∈ listedFiles info, f.path.head? ≠ some b!"downloads") :
    ∃ A' s, OnSteps w Q A A' ∧ A'.proc.log = A.proc.log ∧ A'.proc.slots[A.proc.slots.length]? = some s ∧ s.sys.torrent.infoHash = infoHash ∧
      s.sys.torrent.info = some info ∧ flight s.sys = [] ∧ s.sys.lost = [] ∧ s.sys.ready = [] ∧ s.parts = none ∧
      (∀ i, i < pieceCount d.length info.pieceLength → i ∈ s.sys.written.map Ready.idx) ∧ FilesOver A.proc.fs A'.proc.fs w.cwd (listedFiles info) d ∧
      (∀ (j : Nat) (x : Slot), A.proc.slots[j]? = some x → ∃ y l, A'.proc.slots[j]? = some y ∧ Delivered x y l) ∧
      A'.threads = A.threads ∧ A'.stuck = A.stuck ∧ (∃ t ∈ A'.trackers.trackers, t.up = true) ∧ A'.home = A.home ++ [thread] ∧
      ∃ j : Nat, ∀ m, m ≠ j → ∀ t : TrackerSys, A.trackers.trackers[m]? = some t → t.up = true → ∃ t' : TrackerSys, A'.trackers.trackers[m]? = some t' ∧ t'.up = true ∧
        (⟨infoHash, A.proc.slots.length⟩ : Registered) ∈ A'.trackers.mail ++ (t'.mail ++ t'.pending) := by
  obtain ⟨A2, y, l, s3, c1, c2, c3, c4, c5, c6, c7, d1, ⟨d2, fs', d3⟩, h11, -, hpeers, hothers, hstill⟩ := request_heard' hinv hQ hrun hup hb hf ha
  generalize hk : A.proc.slots.length = k at c6 d1 ⊢
  have hinv3 := ainv_steps s3.steps hinv
  have hQ3 := (show ∀ x ∈ A2.proc.slots, ∀ i, x.sys.torrent.info = some i → Q i by
    cases s3 with
    | refl => exact hQ
    | tail _ _ hq => exact hq)
  have hfree : A2.Free k := by
    refine ⟨thread, ?_, by rw [c3]; exact hf⟩
    have := hinv.home
    rw [c5, List.getElem?_append_right (by omega), this, hk, Nat.sub_self]
    rfl
  have hlen : 2 < infoHash.length := by
    have := addMagnet_length ha
    omega
  obtain ⟨v, e1, e2, e3, e4, e5, e6, e7, e8, e9⟩ := finish_mail hsha hlen hget hd hfit hpos hlay hdl hpeers h11
  have hat : At A2.proc k { Sys.init infoHash A.proc.fs with mail := l.map .found } := by
    obtain ⟨ys, yp⟩ := y
    simp only [] at d2 d3
    refine ⟨ys, by rw [d1, d2], ?_⟩
    rw [d3]
    simp only [c2]
    rfl
  obtain ⟨P', g1, ⟨z, g2, rfl⟩, g3, g4, g5⟩ := alift_steps (w := w) (Q := Q) (A := A2) (by rw [c1]; exact hrun) hfree
    (among_of (announce_all l hpeers)) hat e1 e2 e3 hQ3 (fun i hi => by rw [e4] at hi; cases hi; exact hQi)
  have s4 := s3.trans g1
  refine ⟨_, ⟨z, none⟩, s4, by rw [← c1]; exact g3, g2, ?_, e4, e5, e6, e7, rfl, e8, e9, fun j x hj => ?_, c4, c3, c7, c5, hk ▸ hstill⟩
  rotate_left
  · obtain ⟨y', l', r1, r2⟩ := hothers j x hj
    have hlt := (List.getElem?_eq_some_iff.mp hj).1
    exact ⟨y', l', (g5 j (by omega)).trans r1, r2⟩
  have hfin := ainv_steps s4.steps hinv
  have h1 := hfin.added k
  have h2 := hinv3.added k
  simp only [g2, d1, Option.map_some] at h1 h2
  rw [h1, Option.some.injEq, Registered.mk.injEq] at h2
  rw [h2.1, d3]
  rfl

theorem can_request {w : World} {Q : Info → Prop} {A : App} {info : Info} {d body infoHash : Bytes} (hinv : AInv A)
    (hQ : ∀ x ∈ A.proc.slots, ∀ i, x.sys.torrent.info = some i → Q i) (hQi : Q info) (hsha : ∀ b, (w.sha b).length = 20)
    (hrun : A.proc.log ≠ none) (hup : ∃ t ∈ A.trackers.trackers, t.up = true) {thread : Nat} (hb : thread < A.threads) (hf : thread ∉ A.stuck)
    (ha : addMagnet w.build body = (.ok, some infoHash)) (hget : Gettable w infoHash info A.proc.fs) (hd : Describes w.sha info d) (hfit : Fits info d)
    (hpos : 0 < d.length) (hlay : Placeable w.cwd A.proc.fs (listedFiles info) d info.pieceLength)
    (hdl : ∀ f ∈ listedFiles info, f.path.head? ≠ some b!"downloads") :
    ∃ A' s, OnSteps w Q A A' ∧ A'.proc.log = A.proc.log ∧ A'.proc.slots[A.proc.slots.length]? = some s ∧ s.sys.torrent.infoHash = infoHash ∧
      s.sys.torrent.info = some info ∧ flight s.sys = [] ∧ s.sys.lost = [] ∧ s.sys.ready = [] ∧ s.parts = none ∧
      (∀ i, i < pieceCount d.length info.pieceLength → i ∈ s.sys.written.map Ready.idx) ∧ FilesOver A.proc.fs A'.proc.fs w.cwd (listedFiles info) d ∧
      (∀ (j : Nat) (x : Slot), A.proc.slots[j]? = some x → ∃ y l, A'.proc.slots[j]? = some y ∧ Delivered x y l) ∧
      A'.threads = A.threads ∧ A'.stuck = A.stuck ∧ ∃ t ∈ A'.trackers.trackers, t.up = true := by
  obtain ⟨A', s, h1, h2, h3, h4, h5, h6, h7, h8, h9, h10, h11, h12, h13, h14, h15, -⟩ := can_request' hinv hQ hQi hsha hrun hup hb hf ha hget hd hfit hpos hlay hdl
  exact ⟨A', s, h1, h2, h3, h4, h5, h6, h7, h8, h9, h10, h11, h12, h13, h14, h15⟩

theorem holds_steps {w : World} {Q : Info → Prop} {A A' : App} (h : ASteps w Q A A')
    (hA : ∀ x ∈ A.proc.slots, ∀ i, x.sys.torrent.info = some i → Q i) : ∀ x ∈ A'.proc.slots, ∀ i, x.sys.torrent.info = some i → Q i := by
  cases h with
  | refl => exact hA
  | tail _ _ hq => exact hq

/-- C82: whatever happened before, as long as the program runs, one tracker is left and one thread is not stuck, a request for a torrent can be followed
by steps after which each of its files is as published, followed by what was beyond its listed length before: the request is passed on to the trackers, one of them names peers, the peers serve the metadata (which
is not in the cache) and the content. Nothing else has to happen: no other torrent takes a step, and no collision is needed. Missing: metadata
outside of the conditions of C13, paths outside of the conditions of C66. -/
theorem C82_over_partial {w : World} {Q : Info → Prop} {fs : FS} {n : Nat} {A : App} {info : Info} {md d body infoHash : Bytes} {thread : Nat}
    (hrun : ASteps w Q (App.init fs n) A) (hQ : Q info) (hsha : ∀ b, (w.sha b).length = 20)
    (hlog : A.proc.log ≠ none) (hup : ∃ t ∈ A.trackers.trackers, t.up = true) (hb : thread < A.threads) (hf : thread ∉ A.stuck)
    (ha : addMagnet w.build body = (.ok, some infoHash)) (hlen : infoHash.length = 20) (hnc : NotCached A.proc.fs w.cwd infoHash)
    (hmd : IsBencode (infoDict info) md) (hfits : InfoFits info) (hne : InfoNonempty info) (hmdl : md.length < 2 ^ 64)
    (hd : Describes w.sha info d) (hfit : Fits info d) (hpos : 0 < d.length) (hlay : Placeable w.cwd A.proc.fs (listedFiles info) d info.pieceLength)
    (hdl : ∀ f ∈ listedFiles info, f.path.head? ≠ some b!"downloads") :
    ∃ A' s, OnSteps w Q A A' ∧ A'.proc.log = A.proc.log ∧ A'.proc.slots[A.proc.slots.length]? = some s ∧ s.sys.torrent.infoHash = infoHash ∧
      s.sys.torrent.info = some info ∧ flight s.sys = [] ∧ s.sys.lost = [] ∧ s.sys.ready = [] ∧ s.parts = none ∧
      (∀ i, i < pieceCount d.length info.pieceLength → i ∈ s.sys.written.map Ready.idx) ∧
      FilesOver A.proc.fs A'.proc.fs w.cwd (listedFiles info) d ∧
      (FilesRight A'.proc.fs w.cwd (listedFiles info) d ↔ NoneLonger A.proc.fs w.cwd (listedFiles info)) := by
  obtain ⟨A', s, h1, h2, h3, h4, h5, h6, h7, h8, h9, h10, h11, -⟩ := can_request (ainv_steps hrun (ainv_init fs n))
    (holds_steps hrun (fun x hx => by cases hx)) hQ hsha hlog hup hb hf ha (.inl ⟨hnc, metadata_serves w.build hmd hfits hne hmdl hlen []⟩) hd hfit hpos hlay hdl
  exact ⟨A', s, h1, h2, h3, h4, h5, h6, h7, h8, h9, h10, h11, over_right h11⟩

/-- C82: as `C82_over_partial`; if there is room for the files they are right in the end. Missing: as there. -/
theorem C82_can_finish_partial {w : World} {Q : Info → Prop} {fs : FS} {n : Nat} {A : App} {info : Info} {md d body infoHash : Bytes} {thread : Nat}
    (hrun : ASteps w Q (App.init fs n) A) (hQ : Q info) (hsha : ∀ b, (w.sha b).length = 20)
    (hlog : A.proc.log ≠ none) (hup : ∃ t ∈ A.trackers.trackers, t.up = true) (hb : thread < A.threads) (hf : thread ∉ A.stuck)
    (ha : addMagnet w.build body = (.ok, some infoHash)) (hlen : infoHash.length = 20) (hnc : NotCached A.proc.fs w.cwd infoHash)
    (hmd : IsBencode (infoDict info) md) (hfits : InfoFits info) (hne : InfoNonempty info) (hmdl : md.length < 2 ^ 64)
    (hd : Describes w.sha info d) (hfit : Fits info d) (hpos : 0 < d.length) (hlay : Layout w.cwd A.proc.fs (listedFiles info) d info.pieceLength)
    (hdl : ∀ f ∈ listedFiles info, f.path.head? ≠ some b!"downloads") :
    ∃ A' s, OnSteps w Q A A' ∧ A'.proc.log = A.proc.log ∧ A'.proc.slots[A.proc.slots.length]? = some s ∧ s.sys.torrent.infoHash = infoHash ∧
      s.sys.torrent.info = some info ∧ flight s.sys = [] ∧ s.sys.lost = [] ∧ s.sys.ready = [] ∧ s.parts = none ∧
      (∀ i, i < pieceCount d.length info.pieceLength → i ∈ s.sys.written.map Ready.idx) ∧ FilesRight A'.proc.fs w.cwd (listedFiles info) d := by
  obtain ⟨A', s, h1, h2, h3, h4, h5, h6, h7, h8, h9, h10, h11, -⟩ :=
    C82_over_partial hrun hQ hsha hlog hup hb hf ha hlen hnc hmd hfits hne hmdl hd hfit hpos hlay.placeable hdl
  exact ⟨A', s, h1, h2, h3, h4, h5, h6, h7, h8, h9, h10, over_layout hlay h11⟩

/-- C82 with the metadata in the cache: no peer has to serve it. -/
theorem C82_cached_over_partial {w : World} {Q : Info → Prop} {fs : FS} {n : Nat} {A : App} {info : Info} {d body infoHash : Bytes} {thread : Nat}
    (hrun : ASteps w Q (App.init fs n) A) (hQ : Q info) (hsha : ∀ b, (w.sha b).length = 20)
    (hlog : A.proc.log ≠ none) (hup : ∃ t ∈ A.trackers.trackers, t.up = true) (hb : thread < A.threads) (hf : thread ∉ A.stuck)
    (ha : addMagnet w.build body = (.ok, some infoHash)) (hc : Cached A.proc.fs w.cwd infoHash info) (ht : Typed info)
    (hd : Describes w.sha info d) (hfit : Fits info d) (hpos : 0 < d.length) (hlay : Placeable w.cwd A.proc.fs (listedFiles info) d info.pieceLength)
    (hdl : ∀ f ∈ listedFiles info, f.path.head? ≠ some b!"downloads") :
    ∃ A' s, OnSteps w Q A A' ∧ A'.proc.log = A.proc.log ∧ A'.proc.slots[A.proc.slots.length]? = some s ∧ s.sys.torrent.infoHash = infoHash ∧
      s.sys.torrent.info = some info ∧ flight s.sys = [] ∧ s.sys.lost = [] ∧ s.sys.ready = [] ∧ s.parts = none ∧
      (∀ i, i < pieceCount d.length info.pieceLength → i ∈ s.sys.written.map Ready.idx) ∧
      FilesOver A.proc.fs A'.proc.fs w.cwd (listedFiles info) d ∧
      (FilesRight A'.proc.fs w.cwd (listedFiles info) d ↔ NoneLonger A.proc.fs w.cwd (listedFiles info)) := by
  obtain ⟨A', s, h1, h2, h3, h4, h5, h6, h7, h8, h9, h10, h11, -⟩ := can_request (ainv_steps hrun (ainv_init fs n))
    (holds_steps hrun (fun x hx => by cases hx)) hQ hsha hlog hup hb hf ha (.inr ⟨hc, ht⟩) hd hfit hpos hlay hdl
  exact ⟨A', s, h1, h2, h3, h4, h5, h6, h7, h8, h9, h10, h11, over_right h11⟩

/-- C82 with the metadata in the cache and room for the files. Missing: as for `C82_over_partial`. -/
theorem C82_cached_partial {w : World} {Q : Info → Prop} {fs : FS} {n : Nat} {A : App} {info : Info} {d body infoHash : Bytes} {thread : Nat}
    (hrun : ASteps w Q (App.init fs n) A) (hQ : Q info) (hsha : ∀ b, (w.sha b).length = 20)
    (hlog : A.proc.log ≠ none) (hup : ∃ t ∈ A.trackers.trackers, t.up = true) (hb : thread < A.threads) (hf : thread ∉ A.stuck)
    (ha : addMagnet w.build body = (.ok, some infoHash)) (hc : Cached A.proc.fs w.cwd infoHash info) (ht : Typed info)
    (hd : Describes w.sha info d) (hfit : Fits info d) (hpos : 0 < d.length) (hlay : Layout w.cwd A.proc.fs (listedFiles info) d info.pieceLength)
    (hdl : ∀ f ∈ listedFiles info, f.path.head? ≠ some b!"downloads") :
    ∃ A' s, OnSteps w Q A A' ∧ A'.proc.log = A.proc.log ∧ A'.proc.slots[A.proc.slots.length]? = some s ∧ s.sys.torrent.infoHash = infoHash ∧
      s.sys.torrent.info = some info ∧ flight s.sys = [] ∧ s.sys.lost = [] ∧ s.sys.ready = [] ∧ s.parts = none ∧
      (∀ i, i < pieceCount d.length info.pieceLength → i ∈ s.sys.written.map Ready.idx) ∧ FilesRight A'.proc.fs w.cwd (listedFiles info) d := by
  obtain ⟨A', s, h1, h2, h3, h4, h5, h6, h7, h8, h9, h10, h11, -⟩ :=
    C82_cached_over_partial hrun hQ hsha hlog hup hb hf ha hc ht hd hfit hpos hlay.placeable hdl
  exact ⟨A', s, h1, h2, h3, h4, h5, h6, h7, h8, h9, h10, over_layout hlay h11⟩

/-! ### Non-vacuity -/

/-- The program has just started. -/
theorem started (w : World) (Q : Info → Prop) {fs : FS} (n : Nat) (h : fs (w.cwd ++ [b!"test.log"]) ≠ some .dir) :
    ∃ fs', ASteps w Q (App.init fs n) ⟨⟨[], fs', [], some 0, []⟩, Trackers.init, n, 0, [], []⟩ ∧ fs' (w.cwd ++ [b!"test.log"]) = some (.file []) ∧
      ∀ l, l ≠ w.cwd ++ [b!"test.log"] → fs' l = fs l := by
  obtain ⟨fs', h1, h2, h3⟩ := createLog_ok h
  exact ⟨fs', .tail (.refl _) (.start (App.init fs n) rfl _ (.start (Proc.init fs) rfl fs' h1) (by simp)) (fun s hs => by cases hs), h2, h3⟩

theorem other_name {cwd : Loc} {a b : Bytes} (h : a ≠ b) (q : Loc) : cwd ++ a :: q ≠ cwd ++ [b] := by
  intro e
  have := List.append_cancel_left e
  simp only [List.cons.injEq] at this
  exact h this.1

theorem init_up : ∃ t ∈ Trackers.init.trackers, t.up = true :=
  ⟨_, List.getElem_mem (n := 0) (show 0 < Trackers.init.trackers.length by decide +kernel), by decide +kernel⟩

/-- In every world, from an empty disk, a torrent of three bytes can be got with a request. -/
example (w : World) (hsha : ∀ b, (w.sha b).length = 20) : ∃ A, ASteps w (fun _ => True) (App.init (fun _ => none) 1) A ∧
    readFile A.proc.fs (w.cwd ++ [b!"a"]) = some [1, 2, 3] := by
  obtain ⟨fs', h1, h2, h3⟩ := started w (fun _ => True) (fs := fun _ => none) 1 (by simp)
  have hascii : InfoAscii (threeBytes w.sha) := ⟨ascii_of_lit rfl, by intro fs h; cases h⟩
  have ha : fs' (w.cwd ++ [b!"a"]) = none := h3 _ (other_name (by decide) [])
  obtain ⟨A', s, g1, -, -, -, -, -, -, -, -, -, g2⟩ := C82_can_finish_partial (md := (threeBytes w.sha).encode) (thread := 0) h1 trivial hsha (by simp) init_up
    (by show 0 < 1; decide) (by simp) (add1 w.build) (by decide) ⟨.inr (h3 _ (other_name (by decide) [])), h3 _ (other_name (by decide) _)⟩
    (isBencode_info _ hascii) ⟨by show 1 < 2 ^ 64; decide, by simp [threeBytes, hsha], by show 2 < 2 ^ 64; decide, by intro n h; cases h; decide, by intro fs h; cases h⟩
    ⟨by show b!"a" ≠ [] ∧ validUtf8 b!"a" = true; decide +kernel, by
      intro h
      have := congrArg List.length h
      simp [threeBytes, hsha] at this, by intro fs h; cases h⟩
    (by rw [threeBytes_encode hsha]; simp [hsha])
    (threeBytes_describes hsha) ⟨by decide, by show pieceCount 3 2 ≤ 2 ^ 32; decide, by show 2 * pieceCount 3 2 < 2 ^ 64; decide⟩ (by decide)
    (small_layout w.sha 1 2 3 ((threeBytes_layout_empty w).plain _ (List.mem_singleton.mpr rfl)) (by show fs' _ ≠ _; rw [ha]; simp) (fun c hc => absurd (ha.symm.trans hc) (by simp)))
    (by intro f hf; rw [List.mem_singleton.mp hf]; show some b!"a" ≠ some b!"downloads"; decide)
  exact ⟨A', h1.trans g1.steps, g2 0 _ rfl (by show 0 < 3; decide)⟩

/-- The same with the metadata in the cache. -/
example (w : World) (hsha : ∀ b, (w.sha b).length = 20) :
    ∃ A, ASteps w (fun _ => True) (App.init (cachedFs w.cwd (List.replicate 20 17) (threeBytes w.sha)) 1) A ∧
    readFile A.proc.fs (w.cwd ++ [b!"a"]) = some [1, 2, 3] := by
  have hother : ∀ c, c ≠ b!"downloads" → cachedFs w.cwd (List.replicate 20 17) (threeBytes w.sha) (w.cwd ++ [c]) = none := by
    intro c hc
    have e1 : w.cwd ++ [c] ≠ w.cwd ++ [b!"downloads"] := other_name hc []
    have e2 : w.cwd ++ [c] ≠ cacheLoc w.cwd (List.replicate 20 17) := by
      intro e
      have := congrArg List.length e
      simp [cacheLoc] at this
    rw [cachedFs, if_neg e1, if_neg e2]
  obtain ⟨fs', h1, h2, h3⟩ := started w (fun _ => True) 1 (fs := cachedFs w.cwd (List.replicate 20 17) (threeBytes w.sha)) (by rw [hother _ (by decide)]; simp)
  have ha : fs' (w.cwd ++ [b!"a"]) = none := by rw [h3 _ (other_name (by decide) [])]; exact hother _ (by decide)
  have hc := cachedFs_cached w.cwd (List.replicate 20 17) (threeBytes w.sha)
  obtain ⟨A', s, g1, -, -, -, -, -, -, -, -, -, g2⟩ := C82_cached_partial (info := threeBytes w.sha) (thread := 0) h1 trivial hsha (by simp) init_up
    (by show 0 < 1; decide) (by simp) (add1 w.build)
    ⟨(h3 _ (other_name (by decide) [])).trans hc.1, by show readFile fs' _ = _; rw [readFile, h3 (cacheLoc w.cwd (List.replicate 20 17)) (other_name (by decide) _)]; exact hc.2⟩ (small_typed _ (by decide +kernel) ..)
    (threeBytes_describes hsha) ⟨by decide, by show pieceCount 3 2 ≤ 2 ^ 32; decide, by show 2 * pieceCount 3 2 < 2 ^ 64; decide⟩ (by decide)
    (small_layout w.sha 1 2 3 ((threeBytes_layout_empty w).plain _ (List.mem_singleton.mpr rfl)) (by show fs' _ ≠ _; rw [ha]; simp) (fun c hc => absurd (ha.symm.trans hc) (by simp)))
    (by intro f hf; rw [List.mem_singleton.mp hf]; show some b!"a" ≠ some b!"downloads"; decide)
  exact ⟨A', h1.trans g1.steps, g2 0 _ rfl (by show 0 < 3; decide)⟩

/-- C80 and C81: in every world a torrent can have heard of peers that trackers named for it, and may connect to one of them. -/
example (w : World) : ∃ A s, ASteps w (fun _ => True) (App.init (fun _ => none) 1) A ∧ A.proc.slots[0]? = some s ∧ peer0 ∈ s.sys.told ∧
    MayDial s.sys peer0.endpoint := by
  obtain ⟨fs', h1, -⟩ := started w (fun _ => True) (fs := fun _ => none) 1 (by simp)
  obtain ⟨A', y, l, g1, -, -, -, -, -, -, -, g2, ⟨-, fs, g3⟩, -, g4, -⟩ := request_heard (w := w) (Q := fun _ => True) (thread := 0)
    (ainv_steps h1 (ainv_init _ _)) (fun x hx => by cases hx) (by simp) init_up (by show 0 < 1; decide) (by simp) (add1 w.build)
  refine ⟨A', y, h1.trans g1.steps, g2, ?_, .inl ⟨peer0, ?_, rfl⟩⟩
  · rw [g3]
    simp only [Sys.told, List.mem_filterMap]
    exact ⟨.found peer0, List.mem_append_right _ (List.mem_append_right _ (List.mem_map.mpr ⟨_, g4, rfl⟩)), rfl⟩
  · rw [g3]
    exact List.mem_append_right _ (List.mem_map.mpr ⟨_, g4, rfl⟩)

end RustBit
