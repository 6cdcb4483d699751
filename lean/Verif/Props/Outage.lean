/-
What can go wrong for good while the program runs: without trackers no torrent hears of a peer (C82), and a thread that is stuck is lost (C83).
-/
import Verif.Props.Torrents
import Verif.Props.Endless

namespace RustBit
open Spec

/-! ### Torrents that have not heard of a peer -/

/-- The state of such a torrent. -/
def Idle (s : Slot) : Prop := ∃ infoHash fs, s = ⟨Sys.init infoHash fs, none⟩

theorem idle_untouched {s : Slot} (h : Idle s) : Untouched s := by
  obtain ⟨i, fs, rfl⟩ := h
  exact ⟨rfl, rfl, rfl, rfl, rfl, rfl⟩

/-- It can do nothing but hear of a peer. -/
theorem idle_step {w : World} {infoHash : Bytes} {fs : FS} {t : Sys} (h : Step w (Sys.init infoHash fs) t) : t.told ≠ [] := by
  cases h with
  | announce bytes p hp => intro e; cases e
  | take r queue hq => cases hq
  | finishOk pre post r hb => simp [Sys.init] at hb
  | finishErr pre post r hb => simp [Sys.init] at hb
  | finishPanic pre post r hb => simp [Sys.init] at hb
  | success e p i rest hd hm => cases hm
  | failed e i rest hd hm => cases hm
  | collect p rest hd hm => cases hm
  | found p rest hd hm => cases hm
  | write r ready hu hr => cases hr

theorem idle_work {w : World} {P P' : Proc} (h : PStep w P P') (hl : P.log ≠ none) (hrun : P'.log ≠ none) (hn : P'.slots.length = P.slots.length)
    (hq : ∀ (k : Nat) (s s' : Slot), P.slots[k]? = some s → P'.slots[k]? = some s' → s'.sys.told = s.sys.told) :
    (∀ (k : Nat) (s s' : Slot), P.slots[k]? = some s → Idle s → P'.slots[k]? = some s' → s' = s) ∧
    ((∀ s ∈ P.slots, Idle s) → ∀ l, l ≠ w.cwd ++ [b!"test.log"] → P'.fs l = P.fs l) := by
  -- a step at a torrent that is not idle
  have other : ∀ {j : Nat} {s0 x : Slot} {fs : FS}, P.slots[j]? = some s0 → P'.slots = P.slots.set j x → P'.fs = fs → ¬ Idle s0 →
      (∀ (k : Nat) (s s' : Slot), P.slots[k]? = some s → Idle s → P'.slots[k]? = some s' → s' = s) ∧
      ((∀ s ∈ P.slots, Idle s) → ∀ l, l ≠ w.cwd ++ [b!"test.log"] → P'.fs l = P.fs l) := by
    intro j s0 x fs hj hs hfs hx
    refine ⟨?_, fun hall => absurd (hall _ (List.mem_of_getElem? hj)) hx⟩
    intro k s s' hk hi hk'
    have hjk : j ≠ k := by
      rintro rfl
      rw [hj] at hk
      cases hk
      exact hx hi
    rw [hs, List.getElem?_set_ne hjk, hk] at hk'
    cases hk'
    rfl
  cases h with
  | start hl' => exact absurd hl' hl
  | log n hl' line =>
    refine ⟨fun k s s' hk _ hk' => ?_, fun _ l hne => ?_⟩
    · have hk' : P.slots[k]? = some s' := hk'
      rw [hk] at hk'
      cases hk'
      rfl
    · exact writeAt_other _ _ _ (by rw [logPath_comps]; exact hne)
  | add => simp at hn
  | act j s t hj hst =>
    refine other hj rfl rfl ?_
    rintro ⟨i, fs, rfl⟩
    have := hq j _ _ hj (List.getElem?_set_self (List.getElem?_eq_some_iff.mp hj).1)
    exact idle_step hst this
  | begin j s r ready info ws hj hp hu hr =>
    refine other hj rfl rfl ?_
    rintro ⟨i, fs, rfl⟩
    cases hr
  | beginCrash j s r ready info hj hp hu hr =>
    refine other hj rfl rfl ?_
    rintro ⟨i, fs, rfl⟩
    cases hr
  | part j s x xs fs hj hp =>
    refine other hj rfl rfl ?_
    rintro ⟨i, fs, rfl⟩
    cases hp
  | partCrash j s x xs fs r ready hj hp =>
    refine other hj rfl rfl ?_
    rintro ⟨i, fs, rfl⟩
    cases hp
  | «end» j s r ready hj hp =>
    refine other hj rfl rfl ?_
    rintro ⟨i, fs, rfl⟩
    cases hp
  | stop => exact absurd rfl hrun

/-! ### Without trackers -/

def AllDown (T : Trackers) : Prop := ∀ t ∈ T.trackers, t.up = false

theorem offerAll_length {r : Registered} {ts ts' : List TrackerSys} (h : OfferAll r ts ts') : ts'.length = ts.length := by
  induction h with
  | nil => rfl
  | cons _ _ ih => simp [ih]

theorem tstep_length {T T' : Trackers} (h : TStep T T') : T'.trackers.length = T.trackers.length := by
  cases h with
  | pass r rest ts hm ho => exact offerAll_length ho
  | add => rfl
  | addFull => rfl
  | spawn => simp
  | answer => simp
  | fail => simp
  | crash => simp

theorem allDown_step {T T' : Trackers} (h : AllDown T) (hs : TStep T T') : AllDown T' ∧ T'.found = T.found := by
  constructor
  · intro t ht
    obtain ⟨k, hk⟩ := List.getElem?_of_mem ht
    have hlt : k < T.trackers.length := by
      have := (List.getElem?_eq_some_iff.mp hk).1
      rw [tstep_length hs] at this
      exact this
    have hg : T.trackers[k]? = some T.trackers[k] := List.getElem?_eq_getElem hlt
    have hd := h _ (List.getElem_mem hlt)
    have := down_step hs hg hd
    rw [this] at hk
    cases hk
    exact hd
  · have hno : ∀ {k : Nat} {t : TrackerSys}, T.trackers[k]? = some t → t.up = true → False := by
      intro k t hk hu
      rw [h t (List.mem_of_getElem? hk)] at hu
      cases hu
    cases hs with
    | answer k t pre post r hk hu => exact (hno hk hu).elim
    | _ => rfl

/-- What stays so while the program runs without trackers: `k` has not heard of a peer. -/
structure Deaf (found : List (Nat × PeerEndpoint)) (k : Nat) (A : App) : Prop where
  run : A.proc.log ≠ none
  down : AllDown A.trackers
  found : A.trackers.found = found
  idle : ∀ s : Slot, A.proc.slots[k]? = some s → Idle s

theorem deaf_step {w : World} {found : List (Nat × PeerEndpoint)} {k : Nat} {A A' : App} (hno : messagesTo k found = []) (h : Deaf found k A)
    (hs : AStep w A A') (hl : A'.proc.log ≠ none) : Deaf found k A' := by
  cases hs with
  | start hl' => exact absurd hl' h.run
  | work hl' P' hp hr hn hq =>
    refine ⟨hl, h.down, h.found, ?_⟩
    intro s hk
    have hlt : k < A.proc.slots.length := by
      have := (List.getElem?_eq_some_iff.mp hk).1
      rw [← hn]
      exact this
    have hg : A.proc.slots[k]? = some A.proc.slots[k] := List.getElem?_eq_getElem hlt
    have hid := h.idle _ hg
    rw [(idle_work hp hl' hr hn (fun j s s' a b => (hq j s s' a b).1)).1 k _ _ hg hid hk]
    exact hid
  | add hl' body infoHash ha thread hb hf T' ht hadd =>
    obtain ⟨a, b⟩ := allDown_step h.down ht
    refine ⟨hl, a, b.trans h.found, ?_⟩
    intro s hk
    have hk : (A.proc.slots ++ [⟨Sys.init infoHash A.proc.fs, none⟩])[k]? = some s := hk
    rcases Nat.lt_or_ge k A.proc.slots.length with hlt | hge
    · rw [List.getElem?_append_left hlt] at hk
      exact h.idle s hk
    · rw [List.getElem?_append_right hge] at hk
      have := List.mem_of_getElem? hk
      rw [List.mem_singleton.mp this]
      exact ⟨_, _, rfl⟩
  | track hl' T' ht hadd =>
    obtain ⟨a, b⟩ := allDown_step h.down ht
    exact ⟨hl, a, b.trans h.found, h.idle⟩
  | deliver hl' j p s hd hk =>
    refine ⟨hl, h.down, h.found, ?_⟩
    intro s' hk'
    have hjk : j ≠ k := by
      rintro rfl
      have hm : (j, p) ∈ found.filter (fun x => x.1 == j) := by
        rw [← h.found]
        exact List.mem_filter.mpr ⟨List.mem_of_getElem? hd, by simp⟩
      have : p ∈ messagesTo j found := List.mem_map.mpr ⟨_, hm, rfl⟩
      rw [hno] at this
      cases this
    have hk' : (A.proc.slots.set j _)[k]? = some s' := hk'
    rw [List.getElem?_set_ne hjk] at hk'
    exact h.idle s' hk'
  | stick j hh s p rest hk => exact ⟨hl, h.down, h.found, h.idle⟩
  | stop P' hp hr => exact absurd hr hl

theorem deaf_run {w : World} {found : List (Nat × PeerEndpoint)} {k : Nat} {A A' : App} (hno : messagesTo k found = []) (h : Deaf found k A)
    (hs : OnRun w A A') : Deaf found k A' := by
  induction hs with
  | refl => exact h
  | tail _ hs hl ih => exact deaf_step hno ih hs hl

/-- C82 needs a tracker: once all of them have ended, a torrent requested later, however long the program runs on, never hears of a peer and never
does anything. -/
theorem C82_needs_tracker {w : World} {fs : FS} {n : Nat} {A A' : App} (h : ASteps w (fun _ => True) (App.init fs n) A) (hl : A.proc.log ≠ none)
    (hd : ∀ t ∈ A.trackers.trackers, t.up = false) (hr : OnRun w A A') {k : Nat} {s : Slot} (hk : A.proc.slots.length ≤ k)
    (hs : A'.proc.slots[k]? = some s) : Untouched s := by
  have hi := ainv_steps h (ainv_init fs n)
  have hno : messagesTo k A.trackers.found = [] := by
    rw [messagesTo, List.map_eq_nil_iff, List.filter_eq_nil_iff]
    intro x hx e
    obtain ⟨r, hr, e', -⟩ := C73_messages_are_peers hi.trackers x hx
    obtain ⟨i, hir⟩ := List.getElem?_of_mem hr
    have ha := hi.added i
    rw [hir] at ha
    cases hs : A.proc.slots[i]? with
    | none => rw [hs] at ha; cases ha
    | some y =>
      rw [hs, Option.map_some, Option.some.injEq] at ha
      have h1 := (List.getElem?_eq_some_iff.mp hs).1
      have h2 : x.1 = i := by rw [e', ha]
      have h3 : x.1 = k := by simpa using e
      omega
  exact idle_untouched ((deaf_run hno ⟨hl, hd, rfl, fun s hs => by rw [List.getElem?_eq_none hk] at hs; cases hs⟩ hr).idle s hs)

/-- Every tracker that has the torrent in its mailbox may end, one after the other. -/
theorem crash_all {r : Registered} : ∀ (post pre : List TrackerSys) {T : Trackers}, T.trackers = pre ++ post → (∀ t ∈ pre, t.up = false) →
    (∀ t ∈ post, t.up = true ∧ t.url ∈ builtinUrls ∧ t.mail = [r]) →
    ∃ T', TSteps T T' ∧ AllDown T' ∧ T'.found = T.found ∧ T'.added = T.added := by
  intro post
  induction post with
  | nil =>
    intro pre T hT hpre _
    refine ⟨T, .refl _, ?_, rfl, rfl⟩
    intro t ht
    rw [hT, List.append_nil] at ht
    exact hpre t ht
  | cons t post ih =>
    intro pre T hT hpre hpost
    obtain ⟨hu, hurl, hm⟩ := hpost t (List.mem_cons_self ..)
    obtain ⟨i, hi⟩ := List.getElem?_of_mem hurl
    have hk : T.trackers[pre.length]? = some t := by simp [hT]
    have s1 := TStep.spawn T pre.length t r [] hk hu hm
    have hset : ∀ x y : TrackerSys, (pre ++ x :: post).set pre.length y = pre ++ y :: post := by intro x y; simp
    rw [hT, hset] at s1
    have s2 := TStep.crash { T with trackers := pre ++ { t with mail := [], pending := t.pending ++ [r], spawned := t.spawned ++ [r] } :: post } pre.length
      { t with mail := [], pending := t.pending ++ [r], spawned := t.spawned ++ [r] } r (by simp) hu (by simp) noSocket (fun _ => .failed) [] _
      (noSocket_panics hi r.infoHash)
    simp only [hset] at s2
    obtain ⟨T', a1, a2, a3, a4⟩ := ih (pre ++ [{ t with up := false, mail := [], pending := [], spawned := t.spawned ++ [r] }])
      (T := { T with trackers := pre ++ { t with up := false, mail := [], pending := [], spawned := t.spawned ++ [r] } :: post }) (by simp)
      (by
        intro x hx
        rcases List.mem_append.mp hx with hx | hx
        · exact hpre x hx
        · rw [List.mem_singleton.mp hx])
      (fun x hx => hpost x (List.mem_cons_of_mem _ hx))
    exact ⟨T', tsteps_trans (.tail (.tail (.refl _) s1) s2) a1, a2, a3, a4⟩

/-- C82 refuted: the request comes while no socket can be had. All trackers end, and this torrent and all others requested later never hear of a peer;
nothing but the log is ever written until the program is started again. -/
theorem C82_refuted (w : World) {fs : FS} {n : Nat} (hn : 0 < n) (hfs : fs (w.cwd ++ [b!"test.log"]) ≠ some .dir) {body infoHash : Bytes}
    (ha : addMagnet w.build body = (.ok, some infoHash)) :
    ∃ A s, ASteps w (fun _ => True) (App.init fs n) A ∧ A.proc.slots = [s] ∧ s.sys.torrent.infoHash = infoHash ∧
      ∀ A', OnRun w A A' → (∀ s ∈ A'.proc.slots, Untouched s) ∧ ∀ l, l ≠ w.cwd ++ [b!"test.log"] → A'.proc.fs l = fs l := by
  obtain ⟨fs', h1, -, h3⟩ := started w (fun _ => True) n hfs
  generalize hA0 : (⟨⟨[], fs', [], some 0, []⟩, Trackers.init, n, 0, [], []⟩ : App) = A0 at h1
  -- the request is passed on
  have s1 := AStep.add (w := w) A0 (by rw [← hA0]; simp) body infoHash ha 0 (by rw [← hA0]; exact hn) (by rw [← hA0]; simp) _
    (.add A0.trackers ⟨infoHash, A0.proc.slots.length⟩) rfl
  subst hA0
  have p1 := TStep.pass ⟨[⟨infoHash, 0⟩], builtinUrls.map TrackerSys.new, [⟨infoHash, 0⟩], [], [], []⟩ ⟨infoHash, 0⟩ [] _ rfl
    (offerAll_offered _ (builtinUrls.map TrackerSys.new))
  -- the trackers end
  obtain ⟨T', a1, a2, a3, a4⟩ := crash_all (r := ⟨infoHash, 0⟩) (offered ⟨infoHash, 0⟩ (builtinUrls.map TrackerSys.new)) []
    (T := ⟨[], offered ⟨infoHash, 0⟩ (builtinUrls.map TrackerSys.new), [⟨infoHash, 0⟩], [⟨infoHash, 0⟩], [], []⟩) rfl (fun t ht => by cases ht)
    (by
      intro t ht
      simp only [offered, List.mem_map] at ht
      obtain ⟨t', ⟨u, hu, rfl⟩, rfl⟩ := ht
      exact ⟨rfl, hu, rfl⟩)
  have hQ : ∀ x ∈ [(⟨Sys.init infoHash fs', none⟩ : Slot)], ∀ i, x.sys.torrent.info = some i → True := fun _ _ _ _ => trivial
  have s2 := track_steps (w := w) (Q := fun _ => True)
    (A := ⟨⟨[⟨Sys.init infoHash fs', none⟩], fs', [], some 0, []⟩, ⟨[⟨infoHash, 0⟩], builtinUrls.map TrackerSys.new, [⟨infoHash, 0⟩], [], [], []⟩, n, 0, [0], []⟩)
    (by simp) hQ (tsteps_trans (.tail (.refl _) p1) a1) a4
  refine ⟨_, _, (ASteps.tail h1 s1 hQ).trans s2.steps, rfl, rfl, ?_⟩
  intro A' hr
  suffices h : (∀ k, Deaf [] k A') ∧ ∀ l, l ≠ w.cwd ++ [b!"test.log"] → A'.proc.fs l = fs l by
    refine ⟨fun s hs => ?_, h.2⟩
    obtain ⟨k, hk⟩ := List.getElem?_of_mem hs
    exact idle_untouched ((h.1 k).idle s hk)
  induction hr with
  | refl =>
    refine ⟨fun k => ⟨by simp, a2, a3, fun s hs => ?_⟩, h3⟩
    have := List.mem_of_getElem? hs
    rw [List.mem_singleton.mp this]
    exact ⟨_, _, rfl⟩
  | @tail B C hB hs hl ih =>
    obtain ⟨ih1, ih2⟩ := ih
    refine ⟨fun k => deaf_step rfl (ih1 k) hs hl, ?_⟩
    have hall : ∀ s ∈ B.proc.slots, Idle s := by
      intro s hs
      obtain ⟨k, hk⟩ := List.getElem?_of_mem hs
      exact (ih1 k).idle s hk
    intro l hne
    rw [← ih2 l hne]
    cases hs with
    | start hl' => exact absurd hl' (ih1 0).run
    | work hl' P' hp hr hn hq => exact (idle_work hp hl' hr hn (fun j s s' a b => (hq j s s' a b).1)).2 hall l hne
    | stop P' hp hr => exact absurd hr hl
    | _ => rfl

/-- Non-vacuity: in every world, on an empty disk. -/
example (w : World) : ∃ A s, ASteps w (fun _ => True) (App.init (fun _ => none) 4) A ∧ A.proc.slots = [s] := by
  obtain ⟨A, s, h1, h2, -⟩ := C82_refuted w (fs := fun _ => none) (n := 4) (by decide) (by simp) (add1 w.build)
  exact ⟨A, s, h1, h2⟩

/-! ### Threads that are stuck -/

/-- Without handling a message a torrent stays as it is. -/
theorem unhandled_step {w : World} {s t : Sys} (h : Step w s t) (he : t.handled = s.handled) : t.torrent = s.torrent := by
  have grow : ∀ {l : List Mail} {m : Mail}, ¬ (l ++ [m] = l) := by
    intro l m e
    have := congrArg List.length e
    simp at this
  cases h with
  | announce => rfl
  | take => rfl
  | finishOk => rfl
  | finishErr => rfl
  | finishPanic => rfl
  | success => exact (grow he).elim
  | failed => exact (grow he).elim
  | collect => exact (grow he).elim
  | found => exact (grow he).elim
  | write => rfl

theorem unhandled_work {w : World} {P P' : Proc} (h : PStep w P P') (hl : P.log ≠ none) (hrun : P'.log ≠ none) (hn : P'.slots.length = P.slots.length)
    {k : Nat} {s s' : Slot} (hk : P.slots[k]? = some s) (hk' : P'.slots[k]? = some s') (he : s'.sys.handled = s.sys.handled) :
    s'.sys.torrent = s.sys.torrent := by
  have other : ∀ {j : Nat} {s0 x : Slot}, P.slots[j]? = some s0 → P'.slots = P.slots.set j x →
      (x.sys.handled = s0.sys.handled → x.sys.torrent = s0.sys.torrent) → s'.sys.torrent = s.sys.torrent := by
    intro j s0 x hj hs hx
    by_cases hjk : j = k
    · subst hjk
      rw [hs, List.getElem?_set_self (List.getElem?_eq_some_iff.mp hj).1] at hk'
      rw [hj] at hk
      cases hk
      cases hk'
      exact hx he
    · rw [hs, List.getElem?_set_ne hjk, hk] at hk'
      cases hk'
      rfl
  cases h with
  | start hl' => exact absurd hl' hl
  | log n hl' line =>
    have hk' : P.slots[k]? = some s' := hk'
    rw [hk] at hk'
    cases hk'
    rfl
  | add => simp at hn
  | act j s t hj hst => exact other hj rfl (fun e => unhandled_step (s := { s.sys with fs := P.fs }) hst e)
  | begin j s r ready info ws hj => exact other hj rfl (fun _ => rfl)
  | beginCrash j s r ready info hj => exact other hj rfl (fun _ => rfl)
  | part j s x xs fs hj => exact other hj rfl (fun _ => rfl)
  | partCrash j s x xs fs r ready hj => exact other hj rfl (fun _ => rfl)
  | «end» j s r ready hj => exact other hj rfl (fun _ => rfl)
  | stop => exact absurd rfl hrun

/-- What stays so at a torrent whose thread is stuck. -/
structure Frozen (k thread : Nat) (s : Slot) (A : App) : Prop where
  run : A.proc.log ≠ none
  stuck : thread ∈ A.stuck
  home : A.home[k]? = some thread
  same : ∃ s', A.proc.slots[k]? = some s' ∧ s'.sys.handled = s.sys.handled ∧ s'.sys.torrent = s.sys.torrent

theorem frozen_step {w : World} {k thread : Nat} {s : Slot} {A A' : App} (h : Frozen k thread s A) (hs : AStep w A A') (hl : A'.proc.log ≠ none) :
    Frozen k thread s A' := by
  obtain ⟨h1, h2, h3, s1, h4, h5, h6⟩ := h
  cases hs with
  | start hl' => exact absurd hl' h1
  | work hl' P' hp hr hn hq =>
    have hlt : k < P'.slots.length := by
      rw [hn]
      exact (List.getElem?_eq_some_iff.mp h4).1
    have hg : P'.slots[k]? = some P'.slots[k] := List.getElem?_eq_getElem hlt
    have e : P'.slots[k].sys.handled = s1.sys.handled := by
      apply Classical.byContradiction
      intro hne
      obtain ⟨t, ht, hf⟩ := (hq k _ _ h4 hg).2 hne
      rw [h3] at ht
      cases ht
      exact hf h2
    exact ⟨hl, h2, h3, _, hg, e.trans h5, (unhandled_work hp hl' hr hn h4 hg e).trans h6⟩
  | add hl' body infoHash ha t hb hf T' ht hadd =>
    refine ⟨hl, h2, ?_, s1, ?_, h5, h6⟩
    · show (A.home ++ [t])[k]? = _
      rw [List.getElem?_append_left (List.getElem?_eq_some_iff.mp h3).1]
      exact h3
    · show (A.proc.slots ++ [_])[k]? = _
      rw [List.getElem?_append_left (List.getElem?_eq_some_iff.mp h4).1]
      exact h4
  | track hl' T' ht hadd => exact ⟨hl, h2, h3, s1, h4, h5, h6⟩
  | deliver hl' j p s0 hd hk =>
    by_cases hjk : j = k
    · subst hjk
      rw [h4] at hk
      cases hk
      exact ⟨hl, h2, h3, _, List.getElem?_set_self (List.getElem?_eq_some_iff.mp h4).1, h5, h6⟩
    · exact ⟨hl, h2, h3, s1, (List.getElem?_set_ne hjk).trans h4, h5, h6⟩
  | stick j hh s p rest hk => exact ⟨hl, List.mem_cons_of_mem _ h2, h3, s1, h4, h5, h6⟩
  | stop P' hp hr => exact absurd hr hl

/-- A torrent on a thread that is stuck never handles a message again: its state stays as it is as long as the program runs. -/
theorem C83_stuck_thread {w : World} {A A' : App} {k thread : Nat} {s : Slot} (hl : A.proc.log ≠ none) (hh : A.home[k]? = some thread)
    (ht : thread ∈ A.stuck) (hs : A.proc.slots[k]? = some s) (hr : OnRun w A A') :
    ∃ s', A'.proc.slots[k]? = some s' ∧ s'.sys.handled = s.sys.handled ∧ s'.sys.torrent = s.sys.torrent := by
  suffices h : Frozen k thread s A' from h.same
  induction hr with
  | refl => exact ⟨hl, ht, hh, s, hs, rfl, rfl⟩
  | tail _ hstep hl' ih => exact frozen_step ih hstep hl'

/-- While all threads are stuck no request is answered. -/
theorem C83_all_stuck {w : World} {A A' : App} (hl : A.proc.log ≠ none) (hall : ∀ t, t < A.threads → t ∈ A.stuck) (hr : OnRun w A A') :
    A'.proc.slots.length = A.proc.slots.length := by
  suffices h : A'.proc.log ≠ none ∧ (∀ t, t < A'.threads → t ∈ A'.stuck) ∧ A'.proc.slots.length = A.proc.slots.length from h.2.2
  induction hr with
  | refl => exact ⟨hl, hall, rfl⟩
  | @tail B C _ hs hl' ih =>
    obtain ⟨i1, i2, i3⟩ := ih
    cases hs with
    | start hl0 => exact absurd hl0 i1
    | work _ P' hp hr hn hq => exact ⟨hl', i2, hn.trans i3⟩
    | add _ body infoHash ha t hb hf => exact absurd (i2 t hb) hf
    | track => exact ⟨hl', i2, i3⟩
    | deliver => exact ⟨hl', i2, by rw [← i3]; exact List.length_set ..⟩
    | stick => exact ⟨hl', fun t ht => List.mem_cons_of_mem _ (i2 t ht), i3⟩
    | stop P' hp hr => exact absurd hr hl'

/-- A request that one peer turns against the thread that got it. -/
theorem stick_request {w : World} {A : App} {body infoHash : Bytes} (hinv : AInv A)
    (hrun : A.proc.log ≠ none) (hup : ∃ t ∈ A.trackers.trackers, t.up = true) {thread : Nat} (hb : thread < A.threads) (hf : thread ∉ A.stuck)
    (ha : addMagnet w.build body = (.ok, some infoHash)) (hlen : infoHash.length = 20) (hnc : NotCached A.proc.fs w.cwd infoHash) :
    ∃ A' s, ASteps w (fun _ => True) A A' ∧ A'.proc.log = A.proc.log ∧ A'.proc.fs = A.proc.fs ∧ A'.stuck = thread :: A.stuck ∧ A'.threads = A.threads ∧
      A'.home = A.home ++ [thread] ∧ A'.proc.slots.length = A.proc.slots.length + 1 ∧ (∃ t ∈ A'.trackers.trackers, t.up = true) ∧
      A'.proc.slots[A.proc.slots.length]? = some s ∧ s.sys.torrent.infoHash = infoHash ∧ s.sys.torrent.info = none ∧ s.sys.handled = [] ∧
      ∀ (k : Nat) (x : Slot), A.proc.slots[k]? = some x → ∃ y l, A'.proc.slots[k]? = some y ∧ Delivered x y l := by
  obtain ⟨A', y, l, s3, c1, c2, c3, c4, c5, c6, c7, d1, ⟨d2, fs', d3⟩, h11, -, hpeers, d4⟩ := request_heard (Q := fun _ => True) hinv (fun _ _ _ _ => trivial)
    hrun hup hb hf ha
  cases l with
  | nil => exact absurd h11 (by simp)
  | cons p rest =>
    obtain ⟨bytes, hp⟩ := hpeers p (List.mem_cons_self ..)
    obtain ⟨a, hpa⟩ := fromBytes_parses hp
    obtain ⟨net, hnet⟩ := C37_refuted_metadata w.build hlen []
    have hdial : dialOf p.endpoint (fun _ => some net) = .connected net := by rw [dialOf, hpa]
    have hhome : A'.home[A.proc.slots.length]? = some thread := by
      rw [c5, List.getElem?_append_right (by rw [hinv.home]; exact Nat.le_refl _), hinv.home, Nat.sub_self]
      rfl
    have hh : y.sys.torrent.infoHash = infoHash := by rw [d3]; rfl
    have st := AStep.stick (w := w) A' A.proc.slots.length thread y p (rest.map .found) d1 hhome (by rw [c3]; exact hf) (by rw [d3]; rfl) (by rw [d3]; rfl)
      (by rw [d3]; rfl) (fun _ => some net) [] 0 (by
        intro f
        rw [hh, c2, hdial]
        obtain ⟨fs1, fs2, -, e⟩ := collectInfo_notCached (ε := Unit) (m := w.build) (by omega) hnc (.connected net) f [] 0
        rw [e, hnet])
    exact ⟨_, y, .tail s3.steps st (fun _ _ _ _ => trivial), c1, c2, congrArg (thread :: ·) c3, c4, c5, c6, c7, d1, hh, by rw [d3]; rfl, by rw [d3]; rfl, d4⟩

/-- C83 refuted: as many requests as there are threads, and as many peers that keep sending messages, and the program answers no request and handles no
message any more until it is started again. -/
theorem C83_refuted (w : World) {fs : FS} {n : Nat} (hfs : fs (w.cwd ++ [b!"test.log"]) ≠ some .dir) {body infoHash : Bytes}
    (ha : addMagnet w.build body = (.ok, some infoHash)) (hlen : infoHash.length = 20) (hnc : NotCached fs w.cwd infoHash) :
    ∃ A, ASteps w (fun _ => True) (App.init fs n) A ∧ A.proc.log ≠ none ∧ A.proc.slots.length = n ∧
      ∀ A', OnRun w A A' → A'.proc.slots.length = n ∧
        ∀ (k : Nat) (s : Slot), A'.proc.slots[k]? = some s → s.sys.handled = [] ∧ s.sys.torrent.info = none := by
  obtain ⟨fs', h1, -, h3⟩ := started w (fun _ => True) n hfs
  have hnc' : NotCached fs' w.cwd infoHash := ⟨by rw [h3 _ (other_name (by decide) [])]; exact hnc.1, (h3 (cacheLoc w.cwd infoHash) (other_name (by decide) _)).trans hnc.2⟩
  have key : ∀ i, i ≤ n → ∃ A, ASteps w (fun _ => True) (App.init fs n) A ∧ A.proc.log ≠ none ∧ A.proc.fs = fs' ∧ A.threads = n ∧ A.proc.slots.length = i ∧
      A.home = List.range i ∧ (∀ t, t ∈ A.stuck ↔ t < i) ∧ (∃ t ∈ A.trackers.trackers, t.up = true) ∧
      ∀ (k : Nat) (s : Slot), A.proc.slots[k]? = some s → s.sys.handled = [] ∧ s.sys.torrent.info = none := by
    intro i
    induction i with
    | zero => exact fun _ => ⟨_, h1, by simp, rfl, rfl, rfl, rfl, by simp, init_up, fun k s hs => by simp at hs⟩
    | succ i ih =>
      intro hi
      obtain ⟨A, a1, a2, a3, a4, a5, a6, a7, a8, a9⟩ := ih (by omega)
      have hinv := ainv_steps a1 (ainv_init fs n)
      obtain ⟨A', s, b1, b2, b3, b4, b5, b6, b7, b8, b9, b10, b11, hnew, b12⟩ := stick_request (w := w) hinv a2 a8 (thread := i) (by rw [a4]; omega)
        (fun h => by have := (a7 i).mp h; omega) ha hlen (by rw [a3]; exact hnc')
      refine ⟨A', a1.trans b1, by rw [b2]; exact a2, b3.trans a3, b5.trans a4, by rw [b7, a5], by rw [b6, a6, List.range_succ], ?_, b8, ?_⟩
      · intro t
        rw [b4, List.mem_cons, a7]
        omega
      · intro k x hx
        have hk : k < i + 1 := by
          have := (List.getElem?_eq_some_iff.mp hx).1
          omega
        rcases Nat.lt_or_ge k i with hlt | hge
        · have hg : A.proc.slots[k]? = some A.proc.slots[k] := List.getElem?_eq_getElem (by omega)
          obtain ⟨y, l, e1, e2, fs1, e3⟩ := b12 k _ hg
          rw [e1] at hx
          cases hx
          rw [e3]
          exact a9 k _ hg
        · have : k = A.proc.slots.length := by omega
          rw [this, b9] at hx
          cases hx
          exact ⟨hnew, b11⟩
  obtain ⟨A, a1, a2, a3, a4, a5, a6, a7, a8, a9⟩ := key n (Nat.le_refl _)
  refine ⟨A, a1, a2, a5, fun A' hr => ?_⟩
  have hlen' := C83_all_stuck a2 (fun t ht => (a7 t).mpr (by omega)) hr
  refine ⟨by rw [hlen', a5], fun k s hs => ?_⟩
  have hk : k < n := by
    have := (List.getElem?_eq_some_iff.mp hs).1
    omega
  have hg : A.proc.slots[k]? = some A.proc.slots[k] := List.getElem?_eq_getElem (by omega)
  obtain ⟨s', e1, e2, e3⟩ := C83_stuck_thread a2 (show A.home[k]? = some k by rw [a6]; simp [hk]) ((a7 k).mpr hk) hg hr
  rw [hs] at e1
  cases e1
  rw [e2, e3]
  exact a9 k _ hg

/-- C83 refuted for one torrent: whatever state it is in, a request for another torrent that gets to the same thread, with a peer that keeps sending
messages, ends its work for as long as the program runs. -/
theorem C83_refuted_neighbour {w : World} {fs : FS} {n : Nat} {A : App} {k thread : Nat} {s : Slot} {body infoHash : Bytes}
    (h : ASteps w (fun _ => True) (App.init fs n) A) (hl : A.proc.log ≠ none) (hup : ∃ t ∈ A.trackers.trackers, t.up = true) (hb : thread < A.threads)
    (hk : A.home[k]? = some thread) (hf : thread ∉ A.stuck) (hs : A.proc.slots[k]? = some s)
    (ha : addMagnet w.build body = (.ok, some infoHash)) (hlen : infoHash.length = 20) (hnc : NotCached A.proc.fs w.cwd infoHash) :
    ∃ A', ASteps w (fun _ => True) A A' ∧ A'.proc.log ≠ none ∧ ∀ A'', OnRun w A' A'' →
      ∃ s', A''.proc.slots[k]? = some s' ∧ s'.sys.handled = s.sys.handled ∧ s'.sys.torrent = s.sys.torrent := by
  obtain ⟨A', -, b1, b2, b3, b4, b5, b6, -, -, -, -, -, -, b12⟩ := stick_request (w := w) (ainv_steps h (ainv_init fs n)) hl hup hb hf ha hlen hnc
  have hl' : A'.proc.log ≠ none := by rw [b2]; exact hl
  refine ⟨A', b1, hl', fun A'' hr => ?_⟩
  obtain ⟨y, l, e1, e2, fs1, e3⟩ := b12 k s hs
  obtain ⟨s', f1, f2, f3⟩ := C83_stuck_thread hl' (k := k) (thread := thread)
    (by rw [b6, List.getElem?_append_left (List.getElem?_eq_some_iff.mp hk).1]; exact hk) (by rw [b4]; exact List.mem_cons_self ..) e1 hr
  exact ⟨s', f1, by rw [f2, e3], by rw [f3, e3]⟩

/-- What is left of C83: however many threads are stuck, a torrent on another thread can do all it could do alone (C66, C74 and C78 are about
that), and requests to other threads are answered (C82). Missing: steps in which the writer crashes, and a write that is under way. -/
theorem C83_free_partial {w : World} {Q : Info → Prop} {fs : FS} {n : Nat} {A : App} {k thread : Nat} {s t : Sys}
    (h : ASteps w Q (App.init fs n) A) (hl : A.proc.log ≠ none) (hk : A.home[k]? = some thread) (hf : thread ∉ A.stuck)
    (hs : A.proc.slots[k]? = some ⟨s, none⟩) (hst : Steps w { s with fs := A.proc.fs } t)
    (hquiet : t.told = s.told) (hup : t.writerUp = true) (hQ : ∀ i, t.torrent.info = some i → Q i) :
    ∃ A' x, ASteps w Q A A' ∧ A'.proc.slots[k]? = some ⟨x, none⟩ ∧ { x with fs := A'.proc.fs } = t ∧ A'.stuck = A.stuck := by
  obtain ⟨P', g1, ⟨x, g2, g3⟩, -⟩ := alift_steps hl ⟨thread, hk, hf⟩ (.disk (C84_among h (List.mem_of_getElem? hs)) _) ⟨s, hs, rfl⟩ hst
    (by rw [reported_told, reported_told, hquiet]; rfl) hup (holds_steps h (fun x hx => by cases hx)) hQ
  exact ⟨_, x, g1.steps, g2, g3, rfl⟩

/-- Non-vacuity: in every world, on an empty disk, four threads get stuck. -/
example (w : World) : ∃ A, ASteps w (fun _ => True) (App.init (fun _ => none) 4) A ∧ ∀ A', OnRun w A A' → A'.proc.slots.length = 4 := by
  obtain ⟨A, h1, -, -, h2⟩ := C83_refuted w (fs := fun _ => none) (n := 4) (by simp) (add1 w.build) (by decide) ⟨.inr rfl, rfl⟩
  exact ⟨A, h1, fun A' hr => (h2 A' hr).1⟩

/-- Non-vacuity: a torrent that has eleven peers in its mailbox never asks one of them. -/
example (w : World) : ∃ A A' s, ASteps w (fun _ => True) (App.init (fun _ => none) 1) A ∧ ASteps w (fun _ => True) A A' ∧ A.proc.slots[0]? = some s ∧
    11 ≤ s.sys.mail.length ∧ ∀ A'', OnRun w A' A'' → ∃ s', A''.proc.slots[0]? = some s' ∧ s'.sys.handled = [] := by
  obtain ⟨fs', h1, -, h3⟩ := started w (fun _ => True) (fs := fun _ => none) 1 (by simp)
  obtain ⟨A, y, l, g1, g2, g3, g4, g5, g6, -, g7, g8, ⟨-, fs, g9⟩, g10, -⟩ := request_heard (w := w) (Q := fun _ => True) (thread := 0)
    (ainv_steps h1 (ainv_init _ _)) (fun x hx => by cases hx) (by simp) init_up (by show 0 < 1; decide) (by simp) (add1 w.build)
  have hd : fs' (w.cwd ++ [b!"downloads"]) = none := h3 _ (other_name (by decide) [])
  have hcache : ∀ h, fs' (cacheLoc w.cwd h) = none := fun h => h3 (cacheLoc w.cwd h) (other_name (by decide) _)
  obtain ⟨A', k1, -, k2⟩ := C83_refuted_neighbour (k := 0) (thread := 0) (h1.trans g1.steps) (by rw [g2]; simp) g7 (by rw [g5]; show 0 < 1; decide) (by rw [g6]; rfl)
    (by rw [g4]; simp) g8 (add2 w.build) (by decide) (by rw [g3]; exact ⟨.inr hd, hcache _⟩)
  refine ⟨A, A', y, h1.trans g1.steps, k1, g8, by rw [g9]; simpa [Sys.init] using g10, fun A'' hr => ?_⟩
  obtain ⟨s', e1, e2, -⟩ := k2 A'' hr
  exact ⟨s', e1, by rw [e2, g9]; rfl⟩

end RustBit
