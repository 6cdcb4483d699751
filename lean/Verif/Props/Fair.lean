/-
Property C111: every fair run completes a download that has started.
-/
import Verif.Props.Ends
import Verif.Props.Held
import Verif.Spec.Fair

namespace RustBit
open Spec

/-! ### What a step of the program does to a torrent -/

/-- What can happen to a torrent of the program in one step. -/
inductive Move (w : World) (s s' : Slot) : Prop
  | still (hp : s'.parts = s.parts) (fs : FS) (h : s'.sys = { s.sys with fs })
  | act (hp : s'.parts = s.parts) (fs : FS) (h : Step w { s.sys with fs } s'.sys) (hw : s'.sys.written = s.sys.written)
  | told (hp : s'.parts = s.parts) (fs : FS) (p : PeerEndpoint) (h : s'.sys = { s.sys with fs, mail := s.sys.mail ++ [.found p] })
  | begin (ws : List FileWriter) (h : s.parts = none) (h' : s' = ⟨s.sys, some ws⟩)
  | part (x : FileWriter) (xs : List FileWriter) (h : s.parts = some (x :: xs)) (h' : s' = ⟨s.sys, some xs⟩)
  | done (r : Ready) (ready : List Ready) (up : Bool) (h : s.sys.ready = r :: ready) (h' : s' = s.done r ready up)

theorem Move.refl (w : World) (s : Slot) : Move w s s := .still rfl s.sys.fs rfl

theorem move_work {w : World} {P P' : Proc} (h : PStep w P P') (hl : P.log ≠ none) (hr : P'.log ≠ none) (hn : P'.slots.length = P.slots.length)
    {k : Nat} {s : Slot} (hk : P.slots[k]? = some s) : ∃ s', P'.slots[k]? = some s' ∧ Move w s s' := by
  have other : ∀ {j : Nat} {s0 x : Slot}, P.slots[j]? = some s0 → Move w s0 x → ∃ s', (P.slots.set j x)[k]? = some s' ∧ Move w s s' := by
    intro j s0 x hj hx
    by_cases hjk : j = k
    · subst hjk
      rw [hk] at hj
      cases hj
      exact ⟨x, List.getElem?_set_self (List.getElem?_eq_some_iff.mp hk).1, hx⟩
    · exact ⟨s, by rw [List.getElem?_set_ne hjk]; exact hk, .refl w s⟩
  cases h with
  | start hl' => exact absurd hl' hl
  | log => exact ⟨s, hk, .refl w s⟩
  | add => simp at hn
  | act j s0 t hj hst hw => exact other hj (.act rfl _ hst hw)
  | begin j s0 r ready info ws hj hp => exact other hj (.begin ws hp rfl)
  | beginCrash j s0 r ready info hj hp hu hrd => exact other hj (.done r ready false hrd rfl)
  | part j s0 x xs fs hj hp => exact other hj (.part x xs hp rfl)
  | partCrash j s0 x xs fs r ready hj hp hrd => exact other hj (.done r ready false hrd rfl)
  | «end» j s0 r ready hj hp hrd => exact other hj (.done r ready true hrd rfl)
  | stop => exact absurd rfl hr

theorem move_step {w : World} {A A' : App} (h : AStep w A A') (hl : A.proc.log ≠ none) (hr : A'.proc.log ≠ none) {k : Nat} {s : Slot}
    (hk : A.proc.slots[k]? = some s) : ∃ s', A'.proc.slots[k]? = some s' ∧ Move w s s' := by
  cases h with
  | start hl' => exact absurd hl' hl
  | work _ P' hst hr' hn _ => exact move_work hst hl hr' hn hk
  | add => exact ⟨s, by simpa [List.getElem?_append_left (List.getElem?_eq_some_iff.mp hk).1] using hk, .refl w s⟩
  | track => exact ⟨s, hk, .refl w s⟩
  | deliver _ j p s0 hd hj =>
    by_cases hjk : j = k
    · subst hjk
      rw [hk] at hj
      cases hj
      exact ⟨_, List.getElem?_set_self (List.getElem?_eq_some_iff.mp hk).1, .told rfl _ p rfl⟩
    · exact ⟨s, by simpa [List.getElem?_set_ne hjk] using hk, .refl w s⟩
  | stick => exact ⟨s, hk, .refl w s⟩
  | stop _ _ hr' => exact absurd hr' hr

/-! ### Something gets less with every step -/

/-- What of the state of a torrent is not the disk. -/
def core (s : Slot) : Sys := { s.sys with fs := fun _ => none }

theorem core_same {s s' : Slot} {fs : FS} (h : s'.sys = { s.sys with fs }) : core s' = core s := by rw [core, h]; rfl

theorem left_move {w : World} {info : Info} {n : Nat} {s s' : Slot} (h : Known w info n s.sys) (hm : Move w s s') :
    (core s' = core s ∧ (s'.parts = s.parts ∨ (s.parts = none ∧ ∃ ws, s'.parts = some ws) ∨ ∃ x xs, s.parts = some (x :: xs) ∧ s'.parts = some xs)) ∨
    1 + stepsLeft s'.sys + 2 * s'.sys.lost.length + 2 * peersReported s.sys + 3 * downloadsFailed s.sys =
      stepsLeft s.sys + 2 * s.sys.lost.length + 2 * peersReported s'.sys + 3 * downloadsFailed s'.sys := by
  cases hm with
  | still hp fs e => exact .inl ⟨core_same e, .inl hp⟩
  | act hp fs hst hw => exact .inr (left_step (s := { s.sys with fs }) (known_fs h fs) hst)
  | told hp fs p e =>
    right
    rw [e]
    simp only [stepsLeft, waiting, peersReported, downloadsFailed, mailSteps_append, mailSteps, ← List.append_assoc]
    simp only [List.countP_append, List.countP_cons, List.countP_nil]
    simp
    omega
  | begin ws hp e => exact .inl ⟨by rw [e]; rfl, .inr (.inl ⟨hp, ws, by rw [e]⟩)⟩
  | part x xs hp e => exact .inl ⟨by rw [e]; rfl, .inr (.inr ⟨x, xs, hp, by rw [e]⟩)⟩
  | done r ready up hr e =>
    right
    rw [e]
    simp only [Slot.done, stepsLeft, waiting, peersReported, downloadsFailed, hr, List.length_cons]
    omega

/-- A sequence of numbers that never grows stays the same from some point on. -/
theorem settles (f : Nat → Nat) (a : Nat) (h : ∀ i, a ≤ i → f (i + 1) ≤ f i) : ∃ b, a ≤ b ∧ ∀ i, b ≤ i → f i = f b := by
  have mono : ∀ b, a ≤ b → ∀ j, f (b + j) ≤ f b := by
    intro b hb j
    induction j with
    | zero => exact Nat.le_refl _
    | succ j ih => exact Nat.le_trans (h (b + j) (by omega)) ih
  have main : ∀ m b, a ≤ b → f b ≤ m → ∃ c, a ≤ c ∧ ∀ i, c ≤ i → f i = f c := by
    intro m
    induction m with
    | zero =>
      intro b hb hm
      refine ⟨b, hb, fun i hi => ?_⟩
      have := mono b hb (i - b)
      rw [Nat.add_sub_cancel' hi] at this
      omega
    | succ m ih =>
      intro b hb hm
      by_cases hx : ∃ i, b ≤ i ∧ f i ≠ f b
      · obtain ⟨i, hi, hne⟩ := hx
        have := mono b hb (i - b)
        rw [Nat.add_sub_cancel' hi] at this
        exact ih i (by omega) (by omega)
      · exact ⟨b, hb, fun i hi => Classical.byContradiction fun hne => hx ⟨i, hi, hne⟩⟩
  exact main (f a) a (Nat.le_refl _) (Nat.le_refl _)

theorem run_asteps {w : World} {Q : Info → Prop} {fs : FS} {n : Nat} {run : Nat → App} (h : Run w Q fs n run) : ∀ i, ASteps w Q (App.init fs n) (run i) := by
  intro i
  induction i with
  | zero => exact h.reached
  | succ i ih => exact .tail ih (h.step i) (h.infos (i + 1))

theorem run_asteps_from {w : World} {Q : Info → Prop} {fs : FS} {n : Nat} {run : Nat → App} (h : Run w Q fs n run) (i : Nat) :
    ∀ j, i ≤ j → ASteps w Q (run i) (run j) := by
  intro j hj
  obtain ⟨d, rfl⟩ := Nat.exists_eq_add_of_le hj
  clear hj
  induction d with
  | zero => exact .refl _
  | succ d ih => exact .tail ih (h.step (i + d)) (h.infos (i + d + 1))

/-- The torrent that is in slot `k` at first, at all times. -/
theorem run_slots {w : World} {Q : Info → Prop} {fs : FS} {n : Nat} {run : Nat → App} (h : Run w Q fs n run) {k : Nat} {s : Slot}
    (hk : (run 0).proc.slots[k]? = some s) : ∃ f : Nat → Slot, f 0 = s ∧ (∀ i, (run i).proc.slots[k]? = some (f i)) ∧ ∀ i, Move w (f i) (f (i + 1)) := by
  have hlt : ∀ i, ∃ t, (run i).proc.slots[k]? = some t := by
    intro i
    induction i with
    | zero => exact ⟨s, hk⟩
    | succ i ih =>
      obtain ⟨t, ht⟩ := ih
      obtain ⟨t', ht', -⟩ := move_step (h.step i) (h.on i) (h.on (i + 1)) ht
      exact ⟨t', ht'⟩
  refine ⟨fun i => ((run i).proc.slots[k]?).getD s, by simp [hk], fun i => ?_, fun i => ?_⟩
  · obtain ⟨t, ht⟩ := hlt i
    simp [ht]
  · obtain ⟨t, ht⟩ := hlt i
    obtain ⟨t', ht', hm⟩ := move_step (h.step i) (h.on i) (h.on (i + 1)) ht
    simpa [ht, ht'] using hm

theorem known_move {w : World} {Q : Info → Prop} {fs : FS} {m : Nat} {A : App} {info : Info} {n : Nat} {s s' : Slot} (h : Known w info n s.sys)
    (hm : Move w s s') (hA : ASteps w Q (App.init fs m) A) (hs : s' ∈ A.proc.slots) : Known w info n s'.sys := by
  have hi : s'.sys.torrent.info = some info := by
    cases hm with
    | still hp fs e => rw [e]; exact h.hasInfo
    | act hp fs hst hw => exact (known_step (known_fs h fs) hst).hasInfo
    | told hp fs p e => rw [e]; exact h.hasInfo
    | begin ws hp e => rw [e]; exact h.hasInfo
    | part x xs hp e => rw [e]; exact h.hasInfo
    | done r ready up hr e => rw [e]; exact h.hasInfo
  obtain ⟨n', h'⟩ := among_known (C84_among hA hs) hi
  have := h'.total
  rw [h.total] at this
  cases this
  exact h'

theorem initiated_requestNext (t : Torrent) (info : Info) (e : Bytes) (pool : PiecePool) : (t.requestNext info e pool).1.initiated = t.initiated := by
  cases pool <;> rfl

theorem initiated_step {w : World} {s t : Sys} (h : s.torrent.initiated = true) (hst : Step w s t) : t.torrent.initiated = true := by
  cases hst with
  | announce => exact h
  | take => exact h
  | finishOk => exact h
  | finishErr => exact h
  | finishPanic => exact h
  | write => exact h
  | success e pc i rest hd hm =>
    show (s.torrent.onSuccess e pc i).torrent.initiated = true
    unfold Torrent.onSuccess
    split
    · exact h
    · split
      · dsimp only
        split
        · exact h
        · exact (initiated_requestNext _ _ _ _).trans h
      · exact h
  | failed e i rest hd hm shuffled hs =>
    show (s.torrent.onFailed shuffled e i).torrent.initiated = true
    unfold Torrent.onFailed
    split
    · exact h
    · split
      · dsimp only
        split
        · exact h
        · exact (initiated_requestNext _ _ _ _).trans h
      · exact h
  | collect p rest hd hm hi tcp f peerId room collected fs hh hc =>
    show ((s.torrent.addPeer p).onCollected w.build collected).torrent.initiated = true
    rw [(onCollected_peers _ _ _).2]
    exact h
  | found p rest hd hm info hi shuffles hn hs =>
    show ((s.torrent.addPeer p).onReady info shuffles).torrent.initiated = true
    unfold Torrent.onReady
    rw [if_neg]
    · exact h
    · simp [Torrent.addPeer, h]

theorem peersAfter_told (s : Sys) : s.told.length = (peersAfter (s.handled ++ s.mail)).length := by
  simp only [Sys.told]
  induction s.handled ++ s.mail with
  | nil => rfl
  | cons m l ih => cases m <;> simp [peersAfter, ih]

theorem peersAfter_length (a b : List Mail) : (peersAfter (a ++ b)).length = (peersAfter a).length + (peersAfter b).length := by
  induction a with
  | nil => simp [peersAfter]
  | cons m a ih => cases m <;> simp [peersAfter, ih] <;> omega

theorem peersAfter_none {l : List Mail} (h : ¬ ∃ p, Mail.found p ∈ l) : peersAfter l = [] := by
  induction l with
  | nil => rfl
  | cons m l ih =>
    have := ih fun ⟨p, hp⟩ => h ⟨p, List.mem_cons_of_mem _ hp⟩
    cases m with
    | found p => exact absurd ⟨p, List.mem_cons_self⟩ h
    | success => exact this
    | failed => exact this

theorem starts_step {w : World} {info : Info} {n : Nat} {s t : Sys} (h : Known w info n s) (hn : 0 < n) (hp : s.torrent.peers = peersAfter s.handled)
    (hs : Starts s) (hst : Step w s t) : Starts t := by
  rcases hs with hs | ⟨h10, p, hm⟩
  · exact .inl (initiated_step hs hst)
  have h10' : 10 < t.told.length := by
    rcases told_step hst with ⟨q, e⟩ | e
    · rw [e, List.length_append]; omega
    · rw [e]; exact h10
  cases hst with
  | announce => exact .inr ⟨h10', p, List.mem_append_left _ hm⟩
  | take => exact .inr ⟨h10', p, hm⟩
  | finishOk => exact .inr ⟨h10', p, List.mem_append_left _ hm⟩
  | finishErr => exact .inr ⟨h10', p, List.mem_append_left _ hm⟩
  | finishPanic => exact .inr ⟨h10', p, hm⟩
  | write => exact .inr ⟨h10', p, hm⟩
  | success e pc i rest hd e1 =>
    rw [e1] at hm
    rcases List.mem_cons.mp hm with hm | hm
    · cases hm
    · exact .inr ⟨h10', p, hm⟩
  | failed e i rest hd e1 =>
    rw [e1] at hm
    rcases List.mem_cons.mp hm with hm | hm
    · cases hm
    · exact .inr ⟨h10', p, hm⟩
  | collect q rest hd e1 hi => rw [h.hasInfo] at hi; cases hi
  | found q rest hd e1 info' hi shuffles h5 hs =>
    by_cases hr : ∃ p, Mail.found p ∈ rest
    · exact .inr ⟨h10', hr⟩
    rw [h.hasInfo] at hi
    cases hi
    cases hini : s.torrent.initiated with
    | true => exact .inl (initiated_step (w := w) hini (.found s q rest hd e1 info h.hasInfo shuffles h5 hs))
    | false =>
      left
      have hlen : 10 < (s.torrent.addPeer q).peers.length := by
        rw [peersAfter_told, e1, peersAfter_length, peersAfter, peersAfter_none hr, ← hp] at h10
        simpa [Torrent.addPeer] using h10
      have hpeers : ∀ x ∈ (s.torrent.addPeer q).peers, Parses x.endpoint := by
        intro x hx
        rcases List.mem_append.mp hx with hx | hx
        · exact h.peers x hx
        · rw [List.mem_singleton.mp hx]
          have := h.mail _ (by rw [e1]; exact List.mem_cons_self ..)
          exact this
      have hpool : (s.torrent.addPeer q).pool = some (List.range n) := by
        rw [← (h.idle hini).2.2.2]; exact h.pool
      obtain ⟨reqs, f1, f2, -⟩ := startRequests_spec info (s.torrent.addPeer q).peers (by simp [Torrent.addPeer]) hpeers shuffles (List.range n) hs
      show ((s.torrent.addPeer q).onReady info shuffles).torrent.initiated = true
      rw [Torrent.onReady, if_pos (by simpa [Torrent.addPeer, hini] using hlen), hpool]
      simp only [f1, Bool.not_eq_true', List.isEmpty_eq_false_iff]
      intro e
      rw [e] at f2
      have := congrArg List.length f2
      simp at this
      omega

theorem starts_move {w : World} {info : Info} {n : Nat} {s s' : Slot} (h : Known w info n s.sys) (hn : 0 < n) (hp : s.sys.torrent.peers = peersAfter s.sys.handled)
    (hs : Starts s.sys) (hm : Move w s s') : Starts s'.sys := by
  cases hm with
  | still _ fs e => rw [e]; exact hs
  | act _ fs hst hw => exact starts_step (known_fs h fs) hn hp hs hst
  | told _ fs p e =>
    rw [e]
    rcases hs with hs | ⟨h10, q, hq⟩
    · exact .inl hs
    · refine .inr ⟨?_, q, List.mem_append_left _ hq⟩
      have := told_append s.sys [.found p]
      show 10 < (Sys.told { s.sys with mail := s.sys.mail ++ [.found p] }).length
      rw [this, List.length_append]
      omega
  | begin ws hp e => rw [e]; exact hs
  | part x xs hp e => rw [e]; exact hs
  | done r ready up hr e => rw [e]; exact hs

/-- In every fair run in which downloads fail finitely often a torrent gets to a point from which on nothing happens to it any more: nothing is
waiting for it, its workers or its writer. -/
theorem comes_to_rest {w : World} {Q : Info → Prop} {fs : FS} {n : Nat} {run : Nat → App} (h : Run w Q fs n run) {k : Nat} (hf : Fair run k)
    (hfree : ∀ i, (run i).Free k) {s : Slot} {info : Info} (hk : (run 0).proc.slots[k]? = some s) (hi : s.sys.torrent.info = some info) {B : Nat}
    (hB : ∀ i t, (run i).proc.slots[k]? = some t → downloadsFailed t.sys ≤ B) :
    ∃ i, ∀ j, i ≤ j → ∃ t, (run j).proc.slots[k]? = some t ∧ t.sys.torrent.info = some info ∧
      (Starts s.sys → 0 < wrappedCount info → t.sys.torrent.initiated = true) ∧
      t.sys.mail = [] ∧ t.sys.queue = [] ∧ t.sys.busy = [] ∧ (t.sys.writerUp = true → t.sys.ready = []) := by
  obtain ⟨f, f0, fk, fm⟩ := run_slots h hk
  have hmem : ∀ i, f i ∈ (run i).proc.slots := fun i => List.mem_of_getElem? (fk i)
  obtain ⟨c, hknown0⟩ := among_known (C84_among (run_asteps h 0) (f0 ▸ hmem 0)) hi
  have hknown : ∀ i, Known w info c (f i).sys := by
    intro i
    induction i with
    | zero => rw [f0]; exact hknown0
    | succ i ih => exact known_move ih (fm i) (run_asteps h (i + 1)) (hmem (i + 1))
  have hc : c = wrappedCount info := by
    have h1 := (C84_exact (run_asteps h 0) (f0 ▸ hmem 0) hi).length_eq
    have h2 := hknown0.perm.length_eq
    rw [h1, List.length_range, List.length_range] at h2
    exact h2.symm
  have hini : Starts s.sys → 0 < c → ∀ i, Starts (f i).sys := by
    intro h0 hpos i
    induction i with
    | zero => rw [f0]; exact h0
    | succ i ih => exact starts_move (hknown i) hpos (C84_counters (run_asteps h i) (hmem i)) ih (fm i)
  have hN : ∀ i, peersReported (f i).sys ≤ 18 * 663 := fun i => by
    rw [reported_told]
    exact (C109_peers (run_asteps h i) (hmem i)).2
  have hB' : ∀ i, downloadsFailed (f i).sys ≤ B := fun i => hB i _ (fk i)
  -- the number of steps left does not grow
  let μ : Nat → Nat := fun i => stepsLeft (f i).sys + 2 * (f i).sys.lost.length + 2 * (18 * 663 - peersReported (f i).sys) + 3 * (B - downloadsFailed (f i).sys)
  have hμ : ∀ i, (core (f (i + 1)) = core (f i) ∧ ((f (i + 1)).parts = (f i).parts ∨ ((f i).parts = none ∧ ∃ ws, (f (i + 1)).parts = some ws) ∨
      ∃ x xs, (f i).parts = some (x :: xs) ∧ (f (i + 1)).parts = some xs)) ∨ μ (i + 1) < μ i := by
    intro i
    refine (left_move (hknown i) (fm i)).imp_right fun e => ?_
    have := hN i
    have := hN (i + 1)
    have := hB' i
    have := hB' (i + 1)
    simp only [μ]
    omega
  have hcore : ∀ i, core (f (i + 1)) = core (f i) → μ (i + 1) = μ i := by
    intro i e
    have e1 : stepsLeft (f (i + 1)).sys = stepsLeft (f i).sys := show stepsLeft (core _) = stepsLeft (core _) by rw [e]
    have e2 : peersReported (f (i + 1)).sys = peersReported (f i).sys := show peersReported (core _) = peersReported (core _) by rw [e]
    have e3 : downloadsFailed (f (i + 1)).sys = downloadsFailed (f i).sys := show downloadsFailed (core _) = downloadsFailed (core _) by rw [e]
    have e4 : (f (i + 1)).sys.lost = (f i).sys.lost := show Sys.lost (core _) = Sys.lost (core _) by rw [e]
    simp only [μ, e1, e2, e3, e4]
  obtain ⟨a, -, ha⟩ := settles μ 0 fun i _ => by
    rcases hμ i with e | e
    · exact Nat.le_of_eq (hcore i e.1)
    · exact Nat.le_of_lt e
  have hmove : ∀ i, a ≤ i → core (f (i + 1)) = core (f i) ∧ ((f (i + 1)).parts = (f i).parts ∨ ((f i).parts = none ∧ ∃ ws, (f (i + 1)).parts = some ws) ∨
      ∃ x xs, (f i).parts = some (x :: xs) ∧ (f (i + 1)).parts = some xs) := by
    intro i hi
    rcases hμ i with e | e
    · exact e
    · rw [ha i hi, ha (i + 1) (by omega)] at e
      exact absurd e (Nat.lt_irrefl _)
  have hsame : ∀ i, a ≤ i → core (f i) = core (f a) := by
    intro i hi
    obtain ⟨d, rfl⟩ := Nat.exists_eq_add_of_le hi
    clear hi
    induction d with
    | zero => rfl
    | succ d ih => exact (hmove (a + d) (by omega)).1.trans ih
  -- the writer begins once at most
  obtain ⟨b, hab, hb⟩ := settles (fun i => if (f i).parts = none then 1 else 0) a fun i hi => by
    rcases (hmove i hi).2 with e | ⟨e, ws, e'⟩ | ⟨x, xs, e, e'⟩
    · rw [e]; exact Nat.le_refl _
    · rw [e, e']; simp
    · rw [e, e']; simp
  obtain ⟨g, hbg, hg⟩ := settles (fun i => ((f i).parts.getD []).length) b fun i hi => by
    rcases (hmove i (by omega)).2 with e | ⟨e, ws, e'⟩ | ⟨x, xs, e, e'⟩
    · rw [e]; exact Nat.le_refl _
    · have h1 := hb i hi
      have h2 := hb (i + 1) (by omega)
      rw [← h2] at h1
      simp [e, e'] at h1
    · rw [e, e']; simp
  have hparts : ∀ i, g ≤ i → (f i).parts = (f g).parts := by
    intro i hi
    obtain ⟨d, rfl⟩ := Nat.exists_eq_add_of_le hi
    clear hi
    induction d with
    | zero => rfl
    | succ d ih =>
      rw [← ih]
      rcases (hmove (g + d) (by omega)).2 with e | ⟨e, ws, e'⟩ | ⟨x, xs, e, e'⟩
      · exact e
      · have h1 := hb (g + d) (by omega)
        have h2 := hb (g + d + 1) (by omega)
        rw [← h2] at h1
        rw [← Nat.add_assoc] at *
        simp [e, e'] at h1
      · have h1 := hg (g + d) (by omega)
        have h2 := hg (g + d + 1) (by omega)
        rw [← h2] at h1
        rw [← Nat.add_assoc] at *
        simp [e, e'] at h1
  have later : ∀ {j : Nat} {t : Slot}, (run j).proc.slots[k]? = some t → t = f j := by
    intro j t ht
    rw [fk j] at ht
    exact (Option.some.inj ht).symm
  have hmail : ∀ j, g ≤ j → (f j).sys.mail = [] := by
    intro j hj
    refine Classical.byContradiction fun hne => ?_
    obtain ⟨j', t, h1, h2, h3⟩ := hf.handles j _ (fk j) hne (hknown j).up (fun j _ => hfree j)
    rw [later h2] at h3
    exact h3 (show (core _).handled = (core _).handled by rw [hsame j' (by omega), hsame j (by omega)])
  refine ⟨g, fun j hj => ⟨f j, fk j, (hknown j).hasInfo, fun h0 hpos => ?_, hmail j hj, ?_, ?_, ?_⟩⟩
  · rcases hini h0 (by omega) j with e | ⟨-, p, hp⟩
    · exact e
    · rw [hmail j hj] at hp
      cases hp
  · refine Classical.byContradiction fun hne => ?_
    obtain ⟨j', t, h1, h2, h3⟩ := hf.takes j _ (fk j) hne (by
      have h5 := (hknown j).five
      have h6 := (hknown j).workers
      have h7 := List.length_pos_iff.mpr hne
      simp only [flight, List.length_append, List.length_map] at h5
      omega)
    rw [later h2] at h3
    exact h3 (show (core _).queue = (core _).queue by rw [hsame j' (by omega), hsame j (by omega)])
  · refine Classical.byContradiction fun hne => ?_
    obtain ⟨j', t, h1, h2, h3⟩ := hf.ends j _ (fk j) hne
    rw [later h2] at h3
    exact h3 (show (core _).busy = (core _).busy by rw [hsame j' (by omega), hsame j (by omega)])
  · intro hup
    refine Classical.byContradiction fun hne => ?_
    obtain ⟨j', t, h1, h2, h3⟩ := hf.writes j _ (fk j) hup hne
    rw [later h2] at h3
    rcases h3 with h3 | h3
    · exact h3 ((hparts j' (by omega)).trans (hparts j hj).symm)
    · exact h3 (show (core _).written = (core _).written by rw [hsame j' (by omega), hsame j (by omega)])

/-! ### C111 -/

/-- C111: in every fair run in which downloads fail finitely often and the thread of the torrent does not get stuck, a torrent with metadata comes to rest;
and if it starts and not all of its workers die, every piece has then been handed to the writer or was lost with a worker. -/
theorem C111_rest {w : World} {Q : Info → Prop} {fs : FS} {n : Nat} {run : Nat → App} (h : Run w Q fs n run) {k : Nat} (hf : Fair run k)
    (hfree : ∀ i, (run i).Free k) {s : Slot} {info : Info} (hk : (run 0).proc.slots[k]? = some s) (hi : s.sys.torrent.info = some info) {B : Nat}
    (hB : ∀ i t, (run i).proc.slots[k]? = some t → downloadsFailed t.sys ≤ B) :
    ∃ i, ∀ j, i ≤ j → ∃ t, (run j).proc.slots[k]? = some t ∧ t.sys.mail = [] ∧ t.sys.queue = [] ∧ t.sys.busy = [] ∧
      (t.sys.writerUp = true → t.sys.ready = []) ∧
      (Starts s.sys → t.sys.lost.length < 5 → (handed t.sys ++ t.sys.lost).Perm (List.range (wrappedCount info))) := by
  obtain ⟨i, hrest⟩ := comes_to_rest h hf hfree hk hi hB
  refine ⟨i, fun j hj => ?_⟩
  obtain ⟨t, h1, h2, h3, h4, h5, h6, h7⟩ := hrest j hj
  refine ⟨t, h1, h4, h5, h6, h7, fun hs hl => ?_⟩
  have hm := List.mem_of_getElem? h1
  have hp := C84_exact (run_asteps h j) hm h2
  have hfl : flight t.sys = [] := by simp [flight, h4, h5, h6, reports]
  obtain ⟨c, hkn⟩ := among_known (C84_among (run_asteps h j) hm) h2
  have hw : waiting t.sys = [] := by
    by_cases hpos : 0 < wrappedCount info
    · refine Classical.byContradiction fun hne => ?_
      have := hkn.full (h3 hs hpos) hne
      rw [hfl] at this
      simp at this
      omega
    · have := hp.length_eq
      rw [List.length_range] at this
      simp only [List.length_append] at this
      exact List.length_eq_zero_iff.mp (by omega)
  rw [hw, hfl] at hp
  simpa using hp

/-- C111: in every fair run in which downloads fail finitely often, no worker of the torrent dies and its thread does not get stuck, a torrent with
metadata that starts completes its files, each followed by what was beyond its listed length before, and they stay so. Missing: dead workers (refuted
below); a thread that gets stuck (C83); conditions of C81. -/
theorem C111_complete_partial {w : World} {info : Info} {d : Bytes} {fs : FS} {n : Nat} {run : Nat → App} (hd : Describes w.sha info d)
    (hlay : Placeable w.cwd fs (listedFiles info) d info.pieceLength) (hres : Unreserved info) (hpos : 0 < d.length)
    (h : Run w (Beside info) fs n run) {k : Nat} (hf : Fair run k) (hfree : ∀ i, (run i).Free k) {s : Slot}
    (hk : (run 0).proc.slots[k]? = some s) (hi : s.sys.torrent.info = some info) (hs : Starts s.sys) {B : Nat}
    (hB : ∀ i t, (run i).proc.slots[k]? = some t → downloadsFailed t.sys ≤ B) (hL : ∀ i t, (run i).proc.slots[k]? = some t → t.sys.lost = []) :
    ∃ i, ∀ j, i ≤ j → (∃ r, (info, r) ∈ (run j).proc.taken ∧ Collision w.sha r.piece (piece d info.pieceLength r.idx)) ∨
      FilesOver fs (run j).proc.fs w.cwd (listedFiles info) d ∧
        (FilesRight (run j).proc.fs w.cwd (listedFiles info) d ↔ NoneLonger fs w.cwd (listedFiles info)) := by
  obtain ⟨i, hrest⟩ := comes_to_rest h hf hfree hk hi hB
  refine ⟨i, fun j hj => ?_⟩
  obtain ⟨t, h1, h2, h3, h4, h5, h6, h7⟩ := hrest j hj
  have hm := List.mem_of_getElem? h1
  obtain ⟨c, hkn⟩ := among_known (C84_among (run_asteps h j) hm) h2
  have hc := known_count hkn hd hlay.small
  have hcw : c = wrappedCount info := by
    have h1 := (C84_exact (run_asteps h j) hm h2).length_eq
    have h2 := hkn.perm.length_eq
    rw [h1, List.length_range, List.length_range] at h2
    exact h2.symm
  have hcp : 0 < c := by
    rw [hc]
    exact Nat.lt_of_le_of_lt (Nat.zero_le _) (lt_count hlay.pieceLength hpos)
  rcases C69_pieces_partial hd hlay hres (proc_steps (ainv_init fs n) (run_asteps h j)) hm h2 (.refl _) with hcol | ⟨hup, -⟩
  · exact .inl hcol
  · exact C84_exactly_partial hd hlay hres (run_asteps h j) hm h2 (h3 hs (by omega)) (by simp [flight, h4, h5, h6, reports]) (h7 hup) (hL j t h1)

/-- C111 with room for the files: they are right. Missing: as for `C111_complete_partial`. -/
theorem C111_files_partial {w : World} {info : Info} {d : Bytes} {fs : FS} {n : Nat} {run : Nat → App} (hd : Describes w.sha info d)
    (hlay : Layout w.cwd fs (listedFiles info) d info.pieceLength) (hres : Unreserved info) (hpos : 0 < d.length)
    (h : Run w (Beside info) fs n run) {k : Nat} (hf : Fair run k) (hfree : ∀ i, (run i).Free k) {s : Slot}
    (hk : (run 0).proc.slots[k]? = some s) (hi : s.sys.torrent.info = some info) (hs : Starts s.sys) {B : Nat}
    (hB : ∀ i t, (run i).proc.slots[k]? = some t → downloadsFailed t.sys ≤ B) (hL : ∀ i t, (run i).proc.slots[k]? = some t → t.sys.lost = []) :
    ∃ i, ∀ j, i ≤ j → (∃ r, (info, r) ∈ (run j).proc.taken ∧ Collision w.sha r.piece (piece d info.pieceLength r.idx)) ∨
      FilesRight (run j).proc.fs w.cwd (listedFiles info) d := by
  obtain ⟨i, hall⟩ := C111_complete_partial hd hlay.placeable hres hpos h hf hfree hk hi hs hB hL
  exact ⟨i, fun j hj => (hall j hj).imp_right fun e => over_layout hlay e.1⟩

end RustBit
