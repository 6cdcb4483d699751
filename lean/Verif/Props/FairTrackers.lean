/-
Property C112: what the trackers do in every run in which nothing is left lying about, and runs of this kind.
-/
import Verif.Props.FairStart

namespace RustBit
open Spec

/-! ### What happened stays -/

/-- What comes after in the life of a tracker. -/
structure TLater (t t' : TrackerSys) : Prop where
  spawned : ∃ c, t'.spawned = t.spawned ++ c
  up : t'.up = true → t.up = true ∧ ∃ c, t'.spawned ++ t'.mail = t.spawned ++ t.mail ++ c

theorem TLater.refl (t : TrackerSys) : TLater t t := ⟨⟨[], by simp⟩, fun h => ⟨h, [], by simp⟩⟩

theorem TLater.trans {t u v : TrackerSys} (h1 : TLater t u) (h2 : TLater u v) : TLater t v := by
  obtain ⟨⟨a, ha⟩, f⟩ := h1
  obtain ⟨⟨b, hb⟩, g⟩ := h2
  refine ⟨⟨a ++ b, by rw [hb, ha, List.append_assoc]⟩, fun h => ?_⟩
  obtain ⟨h', c, hc⟩ := g h
  obtain ⟨h'', d, hd⟩ := f h'
  exact ⟨h'', d ++ c, by rw [hc, hd, List.append_assoc]⟩

theorem tlater_set {ts : List TrackerSys} {k m : Nat} {t x y : TrackerSys} (hm : ts[m]? = some t) (hk : ts[k]? = some x) (h : TLater x y) :
    ∃ t', (ts.set k y)[m]? = some t' ∧ TLater t t' := by
  by_cases e : k = m
  · subst e
    rw [hk] at hm
    cases hm
    exact ⟨y, List.getElem?_set_self (List.getElem?_eq_some_iff.mp hk).1, h⟩
  · exact ⟨t, by rw [List.getElem?_set_ne e]; exact hm, .refl _⟩

theorem tlater_offer {r : Registered} {ts ts' : List TrackerSys} (h : OfferAll r ts ts') : ∀ {m : Nat} {t : TrackerSys}, ts[m]? = some t →
    ∃ t', ts'[m]? = some t' ∧ TLater t t' := by
  induction h with
  | nil => intro m t h; simp at h
  | cons h _ ih =>
    intro m t hm
    cases m with
    | zero =>
      cases hm
      refine ⟨_, rfl, ?_⟩
      cases h with
      | sent hu => exact ⟨⟨[], by simp⟩, fun h => ⟨h, [r], by simp⟩⟩
      | full => exact .refl _
      | closed => exact .refl _
    | succ m => exact ih hm

theorem tlater_step {T T' : Trackers} (h : TStep T T') {m : Nat} {t : TrackerSys} (hm : T.trackers[m]? = some t) : ∃ t', T'.trackers[m]? = some t' ∧ TLater t t' := by
  cases h with
  | add r => exact ⟨t, hm, .refl _⟩
  | addFull r h => exact ⟨t, hm, .refl _⟩
  | pass r rest ts _ h => exact tlater_offer h hm
  | spawn k x r rest hk hu hx => exact tlater_set hm hk ⟨⟨_, rfl⟩, fun _ => ⟨hu, [], by simp [hx]⟩⟩
  | answer k x pre post r hk hu => exact tlater_set hm hk ⟨⟨[], by simp⟩, fun _ => ⟨hu, [], by simp⟩⟩
  | fail k x pre post r hk hu => exact tlater_set hm hk ⟨⟨[], by simp⟩, fun _ => ⟨hu, [], by simp⟩⟩
  | crash k x r hk hu => exact tlater_set hm hk ⟨⟨[], by simp⟩, fun h => by cases h⟩

theorem tlater_steps {T T' : Trackers} (h : TSteps T T') {m : Nat} {t : TrackerSys} (hm : T.trackers[m]? = some t) :
    ∃ t', T'.trackers[m]? = some t' ∧ TLater t t' := by
  induction h with
  | refl => exact ⟨t, hm, .refl _⟩
  | tail _ hs ih =>
    obtain ⟨u, h1, h2⟩ := ih
    obtain ⟨v, h3, h4⟩ := tlater_step hs h1
    exact ⟨v, h3, h2.trans h4⟩

theorem passed_step {T T' : Trackers} (h : TStep T T') : (∃ c, T'.passed = T.passed ++ c) ∧ ∃ c, T'.passed ++ T'.mail = T.passed ++ T.mail ++ c := by
  cases h with
  | add r => exact ⟨⟨[], by simp⟩, [r], by simp⟩
  | pass r rest ts hm h => exact ⟨⟨[r], rfl⟩, [], by simp [hm]⟩
  | _ => exact ⟨⟨[], by simp⟩, [], by simp⟩

theorem passed_steps {T T' : Trackers} (h : TSteps T T') : (∃ c, T'.passed = T.passed ++ c) ∧ ∃ c, T'.passed ++ T'.mail = T.passed ++ T.mail ++ c := by
  induction h with
  | refl => exact ⟨⟨[], by simp⟩, [], by simp⟩
  | tail _ hs ih =>
    obtain ⟨⟨a, ha⟩, b, hb⟩ := ih
    obtain ⟨⟨c, hc⟩, d, hd⟩ := passed_step hs
    exact ⟨⟨a ++ c, by rw [hc, ha, List.append_assoc]⟩, b ++ d, by rw [hd, hb, List.append_assoc]⟩

/-! ### Every tracker is asked -/

theorem longer {α : Type} {a b c : List α} (h : b = a ++ c) (hne : b ≠ a) : a.length < b.length := by
  subst h
  cases c with
  | nil => exact absurd (List.append_nil a) hne
  | cons => simp

/-- C112: as long as not more than sixteen torrents are added in all, every tracker whose actor does not end is asked about every one of them. -/
theorem C112_asked {w : World} {Q : Info → Prop} {fs : FS} {n : Nat} {run : Nat → App} (h : Run w Q fs n run) (hp : Prompt run)
    (h16 : ∀ i, (run i).trackers.added.length ≤ 16) (i m : Nat) :
    ∃ i', i ≤ i' ∧ ∀ j, i' ≤ j → ∀ t, (run j).trackers.trackers[m]? = some t → t.up = true → ∃ more, t.spawned = (run i).trackers.added ++ more := by
  have exact : ∀ j, TExact (run j).trackers := fun j => exact_few (ainv_steps (run_asteps h j) (ainv_init fs n)).trackers (h16 j)
  obtain ⟨N, hN⟩ : ∃ N, (run i).trackers.added.length = N := ⟨_, rfl⟩
  have hadd : ∀ j, i ≤ j → ∃ more, (run j).trackers.added = (run i).trackers.added ++ more := fun j hj => added_steps (run_tracked h hj).1
  have hlen : ∀ j, i ≤ j → N ≤ (run j).trackers.passed.length + (run j).trackers.mail.length := by
    intro j hj
    obtain ⟨more, hm⟩ := hadd j hj
    have e1 := congrArg List.length hm
    have e2 := congrArg List.length (exact j).1
    rw [List.length_append] at e1 e2
    omega
  -- it is passed on
  have pass : ∀ d j, i ≤ j → N ≤ (run j).trackers.passed.length + d → ∃ j', i ≤ j' ∧ N ≤ (run j').trackers.passed.length := by
    intro d
    induction d with
    | zero => exact fun j hj hle => ⟨j, hj, hle⟩
    | succ d ih =>
      intro j hj hle
      by_cases hlt : N ≤ (run j).trackers.passed.length
      · exact ⟨j, hj, hlt⟩
      · obtain ⟨j', h1, h2⟩ := hp.passes j (by
          intro e
          have := hlen j hj
          rw [e, List.length_nil] at this
          omega)
        obtain ⟨⟨c, hc⟩, -⟩ := passed_steps (run_tracked h h1).1
        have := longer hc h2
        exact ih j' (by omega) (by omega)
  obtain ⟨i1, hi1, hpass⟩ := pass N i (Nat.le_refl _) (Nat.le_add_left _ _)
  have hpassed : ∀ j, i1 ≤ j → N ≤ (run j).trackers.passed.length := by
    intro j hj
    obtain ⟨⟨c, hc⟩, -⟩ := passed_steps (run_tracked h hj).1
    have := congrArg List.length hc
    rw [List.length_append] at this
    omega
  cases hm : (run i1).trackers.trackers[m]? with
  | none =>
    refine ⟨i1, hi1, fun j hj t ht => ?_⟩
    have e1 := congrArg List.length (tinv_steps (ainv_steps (run_asteps h i1) (ainv_init fs n)).trackers tinv_init).urls
    have e2 := congrArg List.length (tinv_steps (ainv_steps (run_asteps h j) (ainv_init fs n)).trackers tinv_init).urls
    rw [List.length_map] at e1 e2
    have := (List.getElem?_eq_some_iff.mp ht).1
    have := List.getElem?_eq_none_iff.mp hm
    omega
  | some t1 =>
    have ask : ∀ d j t, i1 ≤ j → (run j).trackers.trackers[m]? = some t → N ≤ t.spawned.length + d →
        ∃ j' t', i1 ≤ j' ∧ (run j').trackers.trackers[m]? = some t' ∧ (N ≤ t'.spawned.length ∨ t'.up = false) := by
      intro d
      induction d with
      | zero => exact fun j t hj ht hle => ⟨j, t, hj, ht, .inl hle⟩
      | succ d ih =>
        intro j t hj ht hle
        by_cases hlt : N ≤ t.spawned.length
        · exact ⟨j, t, hj, ht, .inl hlt⟩
        · cases hu : t.up with
          | false => exact ⟨j, t, hj, ht, .inr hu⟩
          | true =>
            obtain ⟨j', t', h1, h2, h3⟩ := hp.asks j m t ht (by
              intro e
              have e1 := congrArg List.length ((exact j).2 t (List.mem_of_getElem? ht) hu)
              have e2 := hpassed j hj
              rw [List.length_append, e, List.length_nil] at e1
              omega)
            rcases h3 with h3 | h3
            · obtain ⟨t'', g1, g2⟩ := tlater_steps (run_tracked h h1).1 ht
              rw [h2] at g1
              cases g1
              obtain ⟨c, hc⟩ := g2.spawned
              have := longer hc h3
              exact ih j' t' (by omega) h2 (by omega)
            · exact ⟨j', t', by omega, h2, .inr h3⟩
    obtain ⟨i2, t2, hi2, ht2, hor⟩ := ask N i1 t1 (Nat.le_refl _) hm (Nat.le_add_left _ _)
    refine ⟨i2, by omega, fun j hj t ht hu => ?_⟩
    obtain ⟨t', g1, g2⟩ := tlater_steps (run_tracked h hj).1 ht2
    rw [ht] at g1
    cases g1
    obtain ⟨hu2, -⟩ := g2.up hu
    obtain ⟨c, hc⟩ := g2.spawned
    rcases hor with hor | hor
    · obtain ⟨more, hm⟩ := hadd j (by omega)
      have hex := (exact j).1
      rw [(exact j).2 t (List.mem_of_getElem? ht) hu, hm, List.append_assoc] at hex
      have hle : (run i).trackers.added.length ≤ t.spawned.length := by
        have := congrArg List.length hc
        rw [List.length_append] at this
        omega
      have h1 := congrArg (List.take (run i).trackers.added.length) hex
      rw [List.take_left, List.take_append_of_le_length hle] at h1
      exact ⟨t.spawned.drop (run i).trackers.added.length, by
        have := List.take_append_drop (run i).trackers.added.length t.spawned
        rw [← h1] at this
        exact this.symm⟩
    · rw [hu2] at hor
      cases hor

/-! ### From the trackers to the files -/

/-- C112: as `C112_complete_partial`, from what trackers name: in every fair run in which nothing is left lying about, a torrent that gets its metadata, and for
which trackers name more than ten peers in all that accept a connection, and one more than it knew of when it got the metadata, completes
its files. Missing: as for `C111_complete_partial`. -/
theorem C112_named_partial {w : World} {info : Info} {d : Bytes} {fs : FS} {n : Nat} {run : Nat → App} (hd : Describes w.sha info d)
    (hlay : Placeable w.cwd fs (listedFiles info) d info.pieceLength) (hres : Unreserved info) (hpos : 0 < d.length)
    (h : Run w (Beside info) fs n run) (hp : Prompt run) {k : Nat} (hf : Fair run k) (hfree : ∀ i, (run i).Free k) {i m : Nat} (hg : GetsAt run k i m info)
    {i' : Nat} (h10 : 10 < (messagesTo k (run i').trackers.found).length) (hlast : m < (messagesTo k (run i').trackers.found).length) {B : Nat}
    (hB : ∀ i t, (run i).proc.slots[k]? = some t → downloadsFailed t.sys ≤ B) (hL : ∀ i t, (run i).proc.slots[k]? = some t → t.sys.lost = []) :
    ∃ i, ∀ j, i ≤ j → (∃ r, (info, r) ∈ (run j).proc.taken ∧ Collision w.sha r.piece (piece d info.pieceLength r.idx)) ∨
      FilesOver fs (run j).proc.fs w.cwd (listedFiles info) d ∧
        (FilesRight (run j).proc.fs w.cwd (listedFiles info) d ↔ NoneLonger fs w.cwd (listedFiles info)) := by
  obtain ⟨a, ha, hall⟩ := C112_delivered h hp i'
  obtain ⟨s, -, hs, -⟩ := id hg
  obtain ⟨t, ht⟩ := run_slot_at h (by omega : i ≤ a + i) hs
  obtain ⟨more, hm⟩ := hall (a + i) (by omega) k t ht
  have hl := congrArg List.length hm
  rw [List.length_append] at hl
  exact C112_complete_partial hd hlay hres hpos h hf hfree hg ht (by omega) (by omega) hB hL

/-! ### Runs of this kind -/

/-- Nothing is waiting for the trackers. -/
def Drained (T : Trackers) : Prop := T.mail = [] ∧ ∀ (m : Nat) (t : TrackerSys), T.trackers[m]? = some t → t.mail = []

/-- A run in which nothing is lying about in the end is prompt. -/
theorem rest_prompt {w : World} {Q : Info → Prop} {fs : FS} {n : Nat} {run : Nat → App} (h : Run w Q fs n run) {a : Nat}
    (hr : ∀ j, a ≤ j → Drained (run j).trackers ∧ (run j).delivered = (run j).trackers.found.length) : Prompt run := by
  refine ⟨fun i hne => ⟨i + a, by omega, fun e => hne ?_⟩, fun i m t ht hne => ?_, fun i hlt => ⟨i + a, by omega, fun e => ?_⟩⟩
  · obtain ⟨-, c, hc⟩ := passed_steps (run_tracked h (Nat.le_add_right i a)).1
    rw [(hr (i + a) (by omega)).1.1, e, List.append_nil, List.append_assoc] at hc
    exact (List.append_eq_nil_iff.mp (List.self_eq_append_right.mp hc)).1
  · obtain ⟨t', h1, h2⟩ := tlater_steps (run_tracked h (Nat.le_add_right i a)).1 ht
    refine ⟨i + a, t', by omega, h1, ?_⟩
    cases hu : t'.up with
    | false => exact .inr rfl
    | true =>
      refine .inl fun e => hne ?_
      obtain ⟨-, c, hc⟩ := h2.up hu
      rw [(hr (i + a) (by omega)).1.2 m t' h1, e, List.append_nil, List.append_assoc] at hc
      exact (List.append_eq_nil_iff.mp (List.self_eq_append_right.mp hc)).1
  · obtain ⟨more, hm⟩ := found_steps (run_tracked h (Nat.le_add_right i a)).1
    have := congrArg List.length hm
    rw [List.length_append] at this
    have := (hr (i + a) (by omega)).2
    omega

/-- Steps that add nothing and find nothing, and end no lookup. -/
def TIdle (T T' : Trackers) : Prop := TSteps T T' ∧ T'.added = T.added ∧ T'.found = T.found ∧ StillAsked (fun _ => True) T T'

theorem TIdle.trans {T U V : Trackers} (h1 : TIdle T U) (h2 : TIdle U V) : TIdle T V :=
  ⟨tsteps_trans h1.1 h2.1, h2.2.1.trans h1.2.1, h2.2.2.1.trans h1.2.2.1, h1.2.2.2.trans h2.2.2.2⟩

theorem drain_interface : ∀ (l : List Registered) {T : Trackers}, T.mail = l → ∃ T', TIdle T T' ∧ T'.mail = [] := by
  intro l
  induction l with
  | nil => exact fun {T} hm => ⟨T, ⟨.refl _, rfl, rfl, .refl _ _⟩, hm⟩
  | cons r l ih =>
    intro T hm
    have st := TStep.pass T r l _ hm (offerAll_offered r T.trackers)
    obtain ⟨T', h1, h2⟩ := ih (T := { T with mail := l, trackers := offered r T.trackers, passed := T.passed ++ [r] }) rfl
    exact ⟨T', TIdle.trans ⟨.tail (.refl _) st, rfl, rfl, still_pass hm _⟩ h1, h2⟩

theorem drain_tracker : ∀ (l : List Registered) {T : Trackers} {k : Nat} {t : TrackerSys}, T.trackers[k]? = some t → t.up = true → t.mail = l →
    ∃ T' t', TIdle T T' ∧ T'.mail = T.mail ∧ T'.trackers[k]? = some t' ∧ t'.mail = [] ∧ ∀ j, j ≠ k → T'.trackers[j]? = T.trackers[j]? := by
  intro l
  induction l with
  | nil => exact fun {T k t} hk _ hm => ⟨T, t, ⟨.refl _, rfl, rfl, .refl _ _⟩, rfl, hk, hm, fun _ _ => rfl⟩
  | cons r l ih =>
    intro T k t hk hu hm
    have st := TStep.spawn T k t r l hk hu hm
    obtain ⟨T', t', h1, h2, h3, h4, h5⟩ := ih
      (T := { T with trackers := T.trackers.set k { t with mail := l, pending := t.pending ++ [r], spawned := t.spawned ++ [r] } }) (k := k)
      (List.getElem?_set_self (List.getElem?_eq_some_iff.mp hk).1) hu rfl
    exact ⟨T', t', TIdle.trans ⟨.tail (.refl _) st, rfl, rfl, still_spawn hk hm _⟩ h1, h2, h3, h4, fun j hj => (h5 j hj).trans (List.getElem?_set_ne (Ne.symm hj))⟩

/-- The trackers can get done with everything that waits for them. -/
theorem drain_all {T : Trackers} (h : TSteps Trackers.init T) : ∃ T', TIdle T T' ∧ Drained T' := by
  obtain ⟨T1, h1, h2⟩ := drain_interface _ (T := T) rfl
  have key : ∀ d, ∃ T', TIdle T T' ∧ T'.mail = [] ∧ ∀ (m : Nat) (t : TrackerSys), m < d → T'.trackers[m]? = some t → t.mail = [] := by
    intro d
    induction d with
    | zero => exact ⟨T1, h1, h2, fun m t hm => by omega⟩
    | succ d ih =>
      obtain ⟨T2, g1, g2, g3⟩ := ih
      cases hd : T2.trackers[d]? with
      | none =>
        refine ⟨T2, g1, g2, fun m t hm ht => ?_⟩
        by_cases e : m = d
        · subst e
          rw [hd] at ht
          cases ht
        · exact g3 m t (by omega) ht
      | some x =>
        cases hu : x.up with
        | false =>
          refine ⟨T2, g1, g2, fun m t hm ht => ?_⟩
          by_cases e : m = d
          · subst e
            rw [hd] at ht
            have ht := Option.some.inj ht
            subst ht
            exact ((tinv_steps (tsteps_trans h g1.1) tinv_init).each _ (List.mem_of_getElem? hd)).down hu |>.1
          · exact g3 m t (by omega) ht
        | true =>
          obtain ⟨T3, x', e1, e2, e3, e4, e5⟩ := drain_tracker _ hd hu rfl
          refine ⟨T3, g1.trans e1, e2.trans g2, fun m t hm ht => ?_⟩
          by_cases e : m = d
          · subst e
            rw [e3] at ht
            cases ht
            exact e4
          · rw [e5 m e] at ht
            exact g3 m t (by omega) ht
  obtain ⟨T', g1, g2, g3⟩ := key 18
  refine ⟨T', g1, g2, fun m t ht => g3 m t ?_ ht⟩
  have e := congrArg List.length (tinv_steps (tsteps_trans h g1.1) tinv_init).urls
  rw [List.length_map] at e
  have e18 : builtinUrls.length = 18 := by decide +kernel
  have := (List.getElem?_eq_some_iff.mp ht).1
  omega

/-- From every state there is a way to one in which nothing is lying about between the requests and the torrents. -/
theorem to_quiet {w : World} {Q : Info → Prop} {A : App} (h : AInv A) (hl : A.proc.log ≠ none) (hQ : ∀ x ∈ A.proc.slots, ∀ i, x.sys.torrent.info = some i → Q i) :
    ∃ T slots, OnSteps w Q A { A with proc := { A.proc with slots }, trackers := T, delivered := T.found.length } ∧ Drained T ∧ StillAsked (fun _ => True) A.trackers T ∧
      ∀ (k : Nat) (x : Slot), A.proc.slots[k]? = some x → ∃ y l, slots[k]? = some y ∧ Delivered x y l := by
  obtain ⟨T, ⟨h1, h2, -, h3⟩, h4⟩ := drain_all h.trackers
  have s1 := track_steps (w := w) (Q := Q) hl hQ h1 h2
  obtain ⟨slots, g1, -, g2⟩ := deliver_all (w := w) (Q := Q) _ (A := { A with trackers := T }) (ainv_steps s1.steps h) hl hQ rfl
  exact ⟨T, slots, s1.trans g1, h4, h3, g2⟩

theorem failed_told (s : Sys) (fs : FS) (l : List PeerEndpoint) : downloadsFailed { s with fs, mail := s.mail ++ l.map .found } = downloadsFailed s := by
  simp only [downloadsFailed, ← List.append_assoc]
  rw [List.countP_append, (List.countP_eq_zero (l := l.map Mail.found)).mpr, Nat.add_zero]
  intro m hm
  obtain ⟨q, -, rfl⟩ := List.mem_map.mp hm
  simp

/-- C112: being prompt never asks for what is impossible either. From every state in which the program runs and the thread of a torrent with metadata is not stuck,
there is a run that is fair and prompt, without further failures. -/
theorem C112_runs {w : World} {Q : Info → Prop} {fs : FS} {n : Nat} {A : App} (hA : ASteps w Q (App.init fs n) A) (hl : A.proc.log ≠ none) {k : Nat}
    (hf : A.Free k) {s : Slot} {info : Info} (hk : A.proc.slots[k]? = some s) (hi : s.sys.torrent.info = some info) :
    ∃ run, Run w Q fs n run ∧ run 0 = A ∧ Fair run k ∧ Prompt run ∧ (∀ i, (run i).Free k) ∧
      ∀ i t, (run i).proc.slots[k]? = some t → downloadsFailed t.sys = downloadsFailed s.sys := by
  obtain ⟨T, slots, s1, q1, -, q2⟩ := to_quiet (w := w) (ainv_steps hA (ainv_init fs n)) hl (holds_steps hA (fun x hx => by cases hx))
  obtain ⟨y, l, y1, -, fs', y2⟩ := q2 k s hk
  have hiy : y.sys.torrent.info = some info := by rw [y2]; exact hi
  have hfy : downloadsFailed y.sys = downloadsFailed s.sys := by
    rw [y2]
    exact failed_told ..
  have hA1 := hA.trans s1.steps
  obtain ⟨c, hkn⟩ := among_known (C84_among hA1 (List.mem_of_getElem? y1)) hiy
  obtain ⟨P', t, h1, h2, h3, h4, h5, h6, h7, h8⟩ := to_rest (fs := fs) (n := n) (c := c) (info := info) (k := k) false (fun e => by cases e) _ hA1 hl hf y1 hkn rfl
  obtain ⟨run, m, r1, r2, r3⟩ := forever hA hl (s1.trans h1)
  have hend : ∀ j, m ≤ j → (run j).proc.slots[k]? = some t := fun j hj => by rw [(r3 j hj).1]; exact h3
  refine ⟨run, r1, r2, rest_fair r1 (m := m) fun j hj => ⟨t, hend j hj, h4⟩, rest_prompt r1 (a := m) fun j hj => ?_, fun i => ?_, fun i x hx => ?_⟩
  · rw [(r3 j hj).2.2.2.1, (r3 j hj).2.2.2.2]
    exact ⟨q1, rfl⟩
  · obtain ⟨th, e1, e2⟩ := hf
    refine run_free r1 ⟨th, by rw [r2]; exact e1⟩ (Nat.le_add_right i m) ⟨th, ?_, ?_⟩
    · rw [(r3 _ (by omega)).2.1]
      exact e1
    · rw [(r3 _ (by omega)).2.2.1]
      exact e2
  · have l1 := run_later r1 (Nat.zero_le i) (by rw [r2]; exact hk) hx
    have l2 := run_later r1 (Nat.le_add_right i m) hx (hend (i + m) (by omega))
    exact (l1.between l2).1 (h6.trans hfy)

/-! ### A torrent may get its metadata from any of its peers -/

/-- A run with a state before. -/
def before (A : App) (run : Nat → App) : Nat → App
  | 0 => A
  | i + 1 => run i

theorem before_run {w : World} {Q : Info → Prop} {fs : FS} {n : Nat} {run : Nat → App} (h : Run w Q fs n run) {A : App} (hA : ASteps w Q (App.init fs n) A)
    (hl : A.proc.log ≠ none) (hst : AStep w A (run 0)) : Run w Q fs n (before A run) := by
  refine ⟨hA, fun i => ?_, fun i => ?_, fun i => ?_⟩
  · cases i with
    | zero => exact hl
    | succ i => exact h.on i
  · cases i with
    | zero => exact hst
    | succ i => exact h.step i
  · cases i with
    | zero => exact holds_steps hA (fun x hx => by cases hx)
    | succ i => exact h.infos i

/-- The first peers can refuse the connection when they are asked for the metadata. -/
theorem refuse_some {w : World} {infoHash : Bytes} {fs : FS} (hlen : 2 < infoHash.length) (hn : NotCached fs w.cwd infoHash) {l : List PeerEndpoint}
    (hl : ∀ q ∈ l, ∃ a, parseSocketV4 q.endpoint = some a) : ∀ j, j ≤ l.length →
    ∃ s, Steps w { Sys.init infoHash fs with mail := l.map .found } s ∧ s.down = false ∧ s.torrent.info = none ∧ s.torrent.infoHash = infoHash ∧
      NotCached s.fs w.cwd infoHash ∧ s.mail = (l.drop j).map .found ∧ s.torrent.peers.length = j ∧ s.writerUp = true ∧ s.lost = [] ∧
      peersReported s = l.length ∧ downloadsFailed s = 0 := by
  intro j
  induction j with
  | zero =>
    refine fun _ => ⟨_, .refl _, rfl, rfl, rfl, hn, by simp, rfl, rfl, rfl, ?_, ?_⟩
    · rw [reported_told]
      exact congrArg List.length ((told_append (Sys.init infoHash fs) (l.map .found)).trans (found_peers l))
    · exact failed_told (Sys.init infoHash fs) fs l
  | succ j ih =>
    intro hj
    obtain ⟨s, h1, h2, h3, h4, h5, h6, h7, h8, h9, h10, h11⟩ := ih (by omega)
    have hmail : s.mail = .found l[j] :: (l.drop (j + 1)).map .found := by
      rw [h6, List.drop_eq_getElem_cons hj, List.map_cons]
    obtain ⟨fs1, fs2, g1, g2⟩ := collectInfo_notCached (ε := Unit) (m := w.build) hlen h5 (dialOf l[j].endpoint (fun _ => none)) 0 [] 0
    have hget : ∃ e, getInfo w.build (dialOf l[j].endpoint (fun _ => none)) 0 [] infoHash = .err e := by
      obtain ⟨a, ha⟩ := hl _ (List.getElem_mem hj)
      rw [dialOf, ha]
      exact ⟨_, rfl⟩
    obtain ⟨e, he⟩ := hget
    rw [he] at g2
    have st := Step.collect (w := w) s l[j] _ h2 hmail h3 (fun _ => none) 0 [] 0 (.ok none) fs1 (by simp) (by rw [h4]; exact g2)
    refine ⟨_, .tail h1 st, ?_, ?_, ?_, g1, ?_, ?_, h8, h9, ?_, ?_⟩
    · simp [Sys.after, Torrent.onCollected]
    · exact h3
    · exact h4
    · rfl
    · simp [Sys.after, Torrent.onCollected, Torrent.addPeer, h7]
    · rw [← h10]
      exact reported_after s _ _ ((s.torrent.addPeer l[j]).onCollected w.build (.ok none)) hmail
    · rw [← h11]
      simp only [downloadsFailed, Sys.after, counts_move s _ _ hmail]

/-- What is found by trackers can be parsed. -/
theorem told_parses {A : App} (h : AInv A) {k : Nat} {s : Slot} (hs : A.proc.slots[k]? = some s) : ∀ q ∈ s.sys.told, ∃ bytes, q ∈ PeerEndpoint.fromBytes bytes := by
  intro q hq
  rw [h.told k s hs] at hq
  obtain ⟨x, hx, rfl⟩ := List.mem_map.mp hq
  obtain ⟨r, -, -, hb⟩ := C73_messages_are_peers h.trackers x (List.mem_of_mem_take (List.mem_filter.mp hx).1)
  exact hb

theorem added_slots {A : App} (h : AInv A) : A.trackers.added.length = A.proc.slots.length := by
  have hle : ∀ {a b : Nat}, (∀ k, a ≤ k → b ≤ k) → b ≤ a := fun hab => hab _ (Nat.le_refl _)
  refine Nat.le_antisymm (hle fun k hk => ?_) (hle fun k hk => ?_)
  · have := h.added k
    rw [List.getElem?_eq_none hk, Option.map_none] at this
    exact List.getElem?_eq_none_iff.mp this
  · have := h.added k
    rw [List.getElem?_eq_none hk] at this
    exact List.getElem?_eq_none_iff.mp (Option.map_eq_none_iff.mp this.symm)

/-- C112: after a request trackers may name `L` peers, eleven or more; whichever of them serves the metadata, there is a run from then on that is fair and prompt,
without failures and lost workers, in which the torrent is told of no other peer. -/
theorem C112_any_peer {w : World} {Q : Info → Prop} {fs : FS} {n : Nat} {A : App} {info : Info} {md d body infoHash : Bytes} {thread : Nat}
    (hrun : ASteps w Q (App.init fs n) A) (hQ : Q info) (hsha : ∀ b, (w.sha b).length = 20)
    (hlog : A.proc.log ≠ none) (hup : ∃ t ∈ A.trackers.trackers, t.up = true) (hb : thread < A.threads) (hf : thread ∉ A.stuck)
    (ha : addMagnet w.build body = (.ok, some infoHash)) (hlen : infoHash.length = 20) (hnc : NotCached A.proc.fs w.cwd infoHash)
    (hmd : IsBencode (infoDict info) md) (hfits : InfoFits info) (hne : InfoNonempty info) (hmdl : md.length < 2 ^ 64)
    (hd : Describes w.sha info d) (hfit : Fits info d) (hpos : 0 < d.length) :
    ∃ L, 11 ≤ L ∧ ∀ m, m < L → ∃ run, OnSteps w Q A (run 0) ∧ Run w Q fs n run ∧ Fair run A.proc.slots.length ∧ Prompt run ∧
      (∀ i, (run i).Free A.proc.slots.length) ∧ GetsAt run A.proc.slots.length 0 (m + 1) info ∧
      (∀ i, (run i).trackers.added.length = A.proc.slots.length + 1) ∧
      ∀ i t, (run i).proc.slots[A.proc.slots.length]? = some t → t.sys.told.length = L ∧ downloadsFailed t.sys = 0 ∧ t.sys.lost = [] := by
  have hinv := ainv_steps hrun (ainv_init fs n)
  obtain ⟨A2, y, l, s3, c1, c2, c3, c4, c5, c6, c7, d1, ⟨d2, fs1, d3⟩, h11, -, -, -⟩ := request_heard (w := w) (Q := Q) hinv
    (holds_steps hrun (fun x hx => by cases hx)) hlog hup hb hf ha
  generalize hk : A.proc.slots.length = k at c6 d1 ⊢
  have hA2 := hrun.trans s3.steps
  have hl2 : A2.proc.log ≠ none := by rw [c1]; exact hlog
  obtain ⟨T, slots, s4, q1, -, q2⟩ := to_quiet (w := w) (Q := Q) (ainv_steps hA2 (ainv_init fs n)) hl2 (holds_steps hA2 (fun x hx => by cases hx))
  obtain ⟨z, l', e1, e2, fs2, e3⟩ := q2 k y d1
  generalize hA3 : ({ A2 with proc := { A2.proc with slots }, trackers := T, delivered := T.found.length } : App) = A3 at s4
  have hsteps3 := hA2.trans s4.steps
  have hinv3 := ainv_steps hsteps3 (ainv_init fs n)
  have hl3 : A3.proc.log ≠ none := by rw [← hA3]; exact hl2
  have hz : A3.proc.slots[k]? = some z := by rw [← hA3]; exact e1
  have hfs3 : A3.proc.fs = A.proc.fs := by rw [← hA3]; exact c2
  have htr3 : Drained A3.trackers ∧ A3.delivered = A3.trackers.found.length := by rw [← hA3]; exact ⟨q1, rfl⟩
  have hfree : A3.Free k := by
    refine ⟨thread, ?_, by rw [← hA3]; show thread ∉ A2.stuck; rw [c3]; exact hf⟩
    have := hinv.home
    rw [← hA3]
    show A2.home[k]? = _
    rw [c5, List.getElem?_append_right (by omega), this, hk, Nat.sub_self]
    rfl
  have hhome3 : A3.home = A2.home := by rw [← hA3]
  clear hA3
  obtain ⟨zs, zp⟩ := z
  simp only [] at e2 e3
  have hzp : zp = none := by rw [e2, d2]
  subst hzp
  have hmz : zs = { Sys.init infoHash A.proc.fs with fs := fs2, mail := (l ++ l').map .found } := by
    rw [e3, d3, List.map_append]
    rfl
  have hat : At A3.proc k { Sys.init infoHash A.proc.fs with mail := (l ++ l').map .found } := by
    refine ⟨zs, hz, ?_⟩
    rw [hmz, hfs3]
    rfl
  have htold : zs.told = l ++ l' := by
    rw [hmz]
    exact (told_append (Sys.init infoHash A.proc.fs) ((l ++ l').map .found)).trans (found_peers _)
  have hpeers : ∀ q ∈ l ++ l', ∃ bytes, q ∈ PeerEndpoint.fromBytes bytes := by
    rw [← htold]
    exact told_parses hinv3 hz
  have h11' : 11 ≤ (l ++ l').length := by rw [List.length_append]; omega
  generalize l ++ l' = L at hmz hat htold hpeers h11'
  have hlen2 : 2 < infoHash.length := by omega
  have hparse : ∀ q ∈ L, ∃ a, parseSocketV4 q.endpoint = some a := by
    intro q hq
    obtain ⟨bytes, hb⟩ := hpeers q hq
    exact fromBytes_parses hb
  refine ⟨L.length, h11', fun m hm => ?_⟩
  -- the first peers refuse
  obtain ⟨s, h1, h2, h3, h4, h5, h6, h7, h8, h9, h10, h12⟩ := refuse_some hlen2 hnc hparse m (by omega)
  have hrep0 : peersReported ({ Sys.init infoHash A.proc.fs with mail := L.map .found } : Sys) = L.length := by
    rw [reported_told]
    exact congrArg List.length ((told_append (Sys.init infoHash A.proc.fs) (L.map .found)).trans (found_peers L))
  obtain ⟨P', g1, ⟨x, g2, rfl⟩, g3, g4, g5⟩ := alift_steps (w := w) (Q := Q) hl3 hfree (among_of (announce_all L hpeers)) hat h1 (h10.trans hrep0.symm) h8
    (holds_steps hsteps3 (fun x hx => by cases hx)) (fun i hi => by rw [h3] at hi; cases hi)
  simp only [] at h2 h3 h4 h5 h6 h7 h8 h9
  have hsteps4 := hsteps3.trans g1.steps
  have hl4 : P'.log ≠ none := by rw [g3]; exact hl3
  -- the next one serves
  obtain ⟨net, f, hserve⟩ := metadata_serves w.build hmd hfits hne hmdl hlen []
  have hmail : x.mail = .found L[m] :: (L.drop (m + 1)).map .found := by rw [h6, List.drop_eq_getElem_cons hm, List.map_cons]
  obtain ⟨a, ha'⟩ := hparse _ (List.getElem_mem hm)
  have hdial : dialOf L[m].endpoint (fun _ => some net) = .connected net := by rw [dialOf, ha']
  obtain ⟨fsa, fsb, -, hcol⟩ := collectInfo_notCached (ε := Unit) (m := w.build) hlen2 h5 (dialOf L[m].endpoint (fun _ => some net)) f [] 0
  rw [hdial, hserve] at hcol
  have st := Step.collect (w := w) { x with fs := P'.fs } L[m] _ h2 hmail h3 (fun _ => some net) f [] 0 (.ok (some info)) (fsb info) (by simp)
    (by rw [hdial]; show collectInfo _ _ _ _ _ _ x.torrent.infoHash _ = _; rw [h4]; exact hcol)
  have htot : (pieceTotal w.build info : Res Unit Nat) = .ok (pieceCount d.length info.pieceLength) := pieceTotal_of hd hfit.length hpos
  have hrept := reported_after { x with fs := P'.fs } _ _ ((x.torrent.addPeer L[m]).onCollected w.build (.ok (some info))) hmail
  obtain ⟨t, ht⟩ : ∃ t, t = ({ ({ x with fs := P'.fs } : Sys).after (.found L[m]) ((L.drop (m + 1)).map .found)
    ((x.torrent.addPeer L[m]).onCollected w.build (.ok (some info))) with fs := fsb info } : Sys) := ⟨_, rfl⟩
  have ht1 : t.torrent.info = some info := by rw [ht]; simp only [Sys.after, Torrent.onCollected, htot]
  have ht2 : t.torrent.peers.length = m + 1 := by
    rw [ht]
    simp only [Sys.after, Torrent.onCollected, htot, Torrent.addPeer, List.length_append, List.length_singleton, h7]
  have ht3 : t.lost = [] := by rw [ht]; exact h9
  have ht4 : downloadsFailed t = 0 := by
    rw [ht, ← h12]
    simp only [downloadsFailed, Sys.after, counts_move x _ _ hmail]
  have htr : peersReported t = peersReported { x with fs := P'.fs } := by rw [ht]; exact hrept
  rw [← ht] at st
  have hquiet := quiet_step st htr
  have hstep := work_set (A := { A3 with proc := P' }) hl4 g2 (PStep.act (w := w) P' k _ t g2 st (by rw [ht]; rfl)) rfl rfl (show t.told = x.told from hquiet) hfree
  have hlt := (List.getElem?_eq_some_iff.mp g2).1
  have hq5 := infos_set (k := k) (y := ⟨t, none⟩) (A := { A3 with proc := P' }) g4 (fun i hi => by
    rw [ht1] at hi
    cases hi
    exact hQ)
  have hsteps5 := ASteps.tail hsteps4 hstep hq5
  have hget5 : (P'.slots.set k ⟨t, none⟩)[k]? = some ⟨t, none⟩ := List.getElem?_set_self hlt
  -- and so on
  have hc : wrappedCount info = pieceCount d.length info.pieceLength := by
    have hmem := List.mem_of_getElem? hget5
    obtain ⟨c, hkn⟩ := among_known (C84_among hsteps5 hmem) ht1
    have e1 := (C84_exact hsteps5 hmem ht1).length_eq
    have e2 := hkn.perm.length_eq
    rw [e1, List.length_range, List.length_range] at e2
    rw [e2]
    exact known_count hkn hd hfit.length
  obtain ⟨run, r1, r2, -, r4, ⟨b, r5⟩, r6⟩ := fair_run hsteps5 hl4 hfree hget5 ht1 true (fun _ i hi => by
    obtain ⟨net, f, pc, e, -⟩ := serve_of hsha hd hfit i (hc ▸ hi)
    exact ⟨net, f, pc, e⟩)
  have hR := before_run r1 hsteps4 hl4 (by rw [r2]; exact hstep)
  refine ⟨before { A3 with proc := P' } run, (s3.trans s4).trans g1, hR, rest_fair hR (m := b + 1) fun j hj => ?_, rest_prompt hR (a := b + 1) fun j hj => ?_, fun i => ?_, ?_, fun i => ?_, fun i u hu => ?_⟩
  · obtain ⟨j, rfl⟩ : ∃ j', j = j' + 1 := ⟨j - 1, by omega⟩
    exact (r5 j (by omega)).2.2
  · obtain ⟨j, rfl⟩ : ∃ j', j = j' + 1 := ⟨j - 1, by omega⟩
    show Drained (run j).trackers ∧ (run j).delivered = (run j).trackers.found.length
    rw [(r5 j (by omega)).1, (r5 j (by omega)).2.1]
    exact htr3
  · cases i with
    | zero => exact hfree
    | succ i => exact r4 i
  · exact ⟨_, _, g2, h3, by show (run 0).proc.slots[k]? = _; rw [r2]; exact hget5, ht1, ht2⟩
  · have hadded3 : A3.trackers.added.length = k + 1 := by
      have e1 := hinv3.home
      rw [added_slots hinv3, ← e1, hhome3, c5, List.length_append, hinv.home, hk]
      rfl
    obtain ⟨a1, ha1⟩ := added_steps (run_tracked hR (Nat.zero_le i)).1
    obtain ⟨a2, ha2⟩ := added_steps (run_tracked hR (i := i) (j := i + b + 1) (by omega)).1
    have e1 := congrArg List.length ha1
    have e2 := congrArg List.length ha2
    rw [show (before { A3 with proc := P' } run (i + b + 1)).trackers = A3.trackers from (r5 (i + b) (by omega)).1] at e2
    rw [show (before { A3 with proc := P' } run 0).trackers = A3.trackers from rfl] at e1
    rw [List.length_append] at e1 e2
    omega
  · have hfix : zs.told = messagesTo k (A3.trackers.found.take A3.delivered) := hinv3.told k _ hz
    have h0 : x.told = L := by
      have := (ainv_steps hsteps4 (ainv_init fs n)).told k _ g2
      exact (this.trans hfix.symm).trans htold
    obtain ⟨q5, q6, v, hv, -⟩ := r5 (i + b) (by omega)
    have hend : v.sys.told = L := by
      have := (ainv_steps (run_asteps r1 (i + b)) (ainv_init fs n)).told k v hv
      rw [q5, q6] at this
      exact (this.trans hfix.symm).trans htold
    obtain ⟨a1, ha1⟩ := told_later hR (Nat.zero_le i) (s := ⟨x, none⟩) g2 hu
    obtain ⟨a2, ha2⟩ := told_later hR (i := i) (j := i + b + 1) (by omega) hu hv
    have e1 := congrArg List.length ha1
    have e2 := congrArg List.length ha2
    rw [hend] at e2
    rw [List.length_append] at e1 e2
    have e3 : x.told.length = L.length := congrArg List.length h0
    refine ⟨by simp only [] at e1; omega, ?_⟩
    cases i with
    | zero =>
      have : (⟨x, none⟩ : Slot) = u := Option.some.inj (g2.symm.trans hu)
      rw [← this]
      exact ⟨h12, h9⟩
    | succ i =>
      obtain ⟨f1, f2, -⟩ := r6 i u hu
      exact ⟨f1.trans ht4, (f2 rfl).trans ht3⟩

theorem peers_told {w : World} {Q : Info → Prop} {fs : FS} {n : Nat} {A : App} (h : ASteps w Q (App.init fs n) A) {s : Slot} (hs : s ∈ A.proc.slots) :
    s.sys.torrent.peers.length ≤ s.sys.told.length := by
  have := congrArg List.length (congrArg (List.map TPeer.endpoint) (C84_counters h hs))
  rw [peersAfter_endpoints, List.length_map, List.length_map] at this
  rw [this, told_handled, List.length_append]
  omega

theorem reports_fresh {s : Sys} (h : Fresh s) : reports s.mail = [] := by
  rw [reports, List.filterMap_eq_nil_iff]
  intro m hm
  obtain ⟨p, rfl, -⟩ := h.mail m hm
  rfl

/-- That a torrent gets its metadata and is told of more than ten peers is not enough: whatever the torrent, there is a run from the request on, fair and prompt,
without failures, lost workers and stuck threads, in which it has its metadata from the first step on and more than ten peers, and never requests
a piece. -/
theorem C112_refuted_last {w : World} {Q : Info → Prop} {fs : FS} {n : Nat} {A : App} {info : Info} {md d body infoHash : Bytes} {thread : Nat}
    (hrun : ASteps w Q (App.init fs n) A) (hQ : Q info) (hsha : ∀ b, (w.sha b).length = 20)
    (hlog : A.proc.log ≠ none) (hup : ∃ t ∈ A.trackers.trackers, t.up = true) (hb : thread < A.threads) (hf : thread ∉ A.stuck)
    (ha : addMagnet w.build body = (.ok, some infoHash)) (hlen : infoHash.length = 20) (hnc : NotCached A.proc.fs w.cwd infoHash)
    (hmd : IsBencode (infoDict info) md) (hfits : InfoFits info) (hne : InfoNonempty info) (hmdl : md.length < 2 ^ 64)
    (hd : Describes w.sha info d) (hfit : Fits info d) (hpos : 0 < d.length) :
    ∃ L run, 11 ≤ L ∧ OnSteps w Q A (run 0) ∧ Run w Q fs n run ∧ Fair run A.proc.slots.length ∧ Prompt run ∧ (∀ i, (run i).Free A.proc.slots.length) ∧
      GetsAt run A.proc.slots.length 0 L info ∧
      ∀ i t, (run i).proc.slots[A.proc.slots.length]? = some t → t.sys.told.length = L ∧ downloadsFailed t.sys = 0 ∧ t.sys.lost = [] ∧
        t.sys.torrent.initiated = false ∧ handed t.sys = [] ∧ flight t.sys = [] := by
  obtain ⟨L, h11, hall⟩ := C112_any_peer hrun hQ hsha hlog hup hb hf ha hlen hnc hmd hfits hne hmdl hd hfit hpos
  obtain ⟨run, h1, h2, h3, h4, h5, h6, -, h7⟩ := hall (L - 1) (by omega)
  rw [show L - 1 + 1 = L by omega] at h6
  refine ⟨L, run, h11, h1, h2, h3, h4, h5, h6, fun i t ht => ?_⟩
  obtain ⟨e1, e2, e3⟩ := h7 i t ht
  refine ⟨e1, e2, e3, ?_⟩
  obtain ⟨s, s', hs, hn, hs', hi, hm⟩ := id h6
  have hmem := List.mem_of_getElem? ht
  have ham := C84_among (run_asteps h2 i) hmem
  cases i with
  | zero =>
    rw [hs] at ht
    cases ht
    rcases among_inv ham with h | ⟨info', n', h⟩
    · exact ⟨h.initiated, by rw [handed, h.written, h.ready]; rfl, by rw [flight, h.queue, h.busy, reports_fresh h]; rfl⟩
    · rw [h.hasInfo] at hn
      cases hn
  | succ i =>
    have hti := run_info (Run.shift h2 1) (k := A.proc.slots.length) hs' hi (j := i) (by rw [Nat.add_comm]; exact ht)
    obtain ⟨c, hkn⟩ := among_known ham hti
    have hc : 0 < wrappedCount info := by
      have e1 := (C84_exact (run_asteps h2 _) hmem hti).length_eq
      have e2 := hkn.perm.length_eq
      rw [e1, List.length_range, List.length_range] at e2
      rw [e2, known_count hkn hd hfit.length]
      exact Nat.div_pos (by have := hd.pieceLength; omega) hd.pieceLength
    have hst := C112_started h2 h6 hc (Nat.succ_pos i) ht
    have hle := peers_told (run_asteps h2 _) hmem
    have hini : t.sys.torrent.initiated = false := by
      rw [← Bool.not_eq_true]
      intro h
      have := (hst.mp h).2
      omega
    obtain ⟨a, b, -⟩ := hkn.idle hini
    exact ⟨hini, b, a⟩

/-! ### Non-vacuity -/

/-- In every world, from an empty disk, after a request for a torrent of three bytes. -/
theorem three_request_any (w : World) (hsha : ∀ b, (w.sha b).length = 20) {Q : Info → Prop} (hQ : Q (threeBytes w.sha)) :
    ∃ L, 11 ≤ L ∧ ∀ m, m < L → ∃ run, Run w Q (fun _ => none) 1 run ∧ Fair run 0 ∧ Prompt run ∧ (∀ i, (run i).Free 0) ∧
      GetsAt run 0 0 (m + 1) (threeBytes w.sha) ∧ (∀ i, (run i).trackers.added.length = 1) ∧
      ∀ i t, (run i).proc.slots[0]? = some t → t.sys.told.length = L ∧ downloadsFailed t.sys = 0 ∧ t.sys.lost = [] := by
  obtain ⟨fs', h1, h2, h3⟩ := started w Q (fs := fun _ => none) 1 (by simp)
  have hascii : InfoAscii (threeBytes w.sha) := ⟨ascii_of_lit rfl, by intro fs h; cases h⟩
  obtain ⟨L, hL, hall⟩ := C112_any_peer (md := (threeBytes w.sha).encode) (d := [1, 2, 3]) (thread := 0) h1 hQ hsha (by simp) init_up
    (by show 0 < 1; decide) (by simp) (add1 w.build) (by decide) ⟨.inr (h3 _ (other_name (by decide) [])), h3 _ (other_name (by decide) _)⟩
    (isBencode_info _ hascii) ⟨by show 1 < 2 ^ 64; decide, by simp [threeBytes, hsha], by show 2 < 2 ^ 64; decide, by intro n h; cases h; decide, by intro fs h; cases h⟩
    ⟨by show b!"a" ≠ [] ∧ validUtf8 b!"a" = true; decide +kernel, by
      intro h
      have := congrArg List.length h
      simp [threeBytes, hsha] at this, by intro fs h; cases h⟩
    (by rw [threeBytes_encode hsha]; simp [hsha])
    (threeBytes_describes hsha) ⟨by decide, by show pieceCount 3 2 ≤ 2 ^ 32; decide, by show 2 * pieceCount 3 2 < 2 ^ 64; decide⟩ (by decide)
  refine ⟨L, hL, fun m hm => ?_⟩
  obtain ⟨run, -, r⟩ := hall m hm
  exact ⟨run, r⟩

theorem three_request (w : World) (hsha : ∀ b, (w.sha b).length = 20) :
    ∃ L, 11 ≤ L ∧ ∀ m, m < L → ∃ run, Run w (Beside (threeBytes w.sha)) (fun _ => none) 1 run ∧ Fair run 0 ∧ Prompt run ∧ (∀ i, (run i).Free 0) ∧
      GetsAt run 0 0 (m + 1) (threeBytes w.sha) ∧ (∀ i, (run i).trackers.added.length = 1) ∧
      ∀ i t, (run i).proc.slots[0]? = some t → t.sys.told.length = L ∧ downloadsFailed t.sys = 0 ∧ t.sys.lost = [] :=
  three_request_any w hsha (.inl rfl)

theorem up_step {w : World} {s t : Sys} (h : Step w s t) (hne : t.torrent ≠ s.torrent) : s.down = false := by
  cases h with
  | success _ _ _ _ hd => exact hd
  | failed _ _ _ hd => exact hd
  | collect _ _ hd => exact hd
  | found _ _ hd => exact hd
  | _ => exact absurd rfl hne

theorem up_move {w : World} {s t : Slot} (h : Move w s t) (hne : t.sys.torrent ≠ s.sys.torrent) : s.sys.down = false := by
  cases h with
  | act _ fs hst hw => exact up_step (s := { s.sys with fs }) hst hne
  | still _ fs e => rw [e] at hne; exact absurd rfl hne
  | told _ fs p e => rw [e] at hne; exact absurd rfl hne
  | begin ws hp e => rw [e] at hne; exact absurd rfl hne
  | part x xs hp e => rw [e] at hne; exact absurd rfl hne
  | done r ready up hr e => rw [e] at hne; exact absurd rfl hne

/-- C112_handles, C112_heard, C112_started, C112_starts, C112_complete_partial, C112_delivered, C112_asked and C112_named_partial: in every world there is a run in which
a torrent of three bytes gets its metadata from the first of at least eleven peers. -/
example (w : World) (hsha : ∀ b, (w.sha b).length = 20) : ∃ run s, Run w (Beside (threeBytes w.sha)) (fun _ => none) 1 run ∧ Fair run 0 ∧ Prompt run ∧ (∀ i, (run i).Free 0) ∧
    StaysUp run 0 ∧ GetsAt run 0 0 1 (threeBytes w.sha) ∧ 0 < wrappedCount (threeBytes w.sha) ∧ (∀ i, (run i).trackers.added.length ≤ 16) ∧
    (run 0).proc.slots[0]? = some s ∧ 10 < s.sys.told.length ∧ 10 < (messagesTo 0 (run 0).trackers.found).length ∧
    (∀ i t, (run i).proc.slots[0]? = some t → downloadsFailed t.sys ≤ 0 ∧ t.sys.lost = []) ∧
    Placeable w.cwd (fun _ => none) (listedFiles (threeBytes w.sha)) [1, 2, 3] 2 ∧ Unreserved (threeBytes w.sha) := by
  obtain ⟨L, hL, hall⟩ := three_request w hsha
  obtain ⟨run, h1, h2, h3, h4, h5, h6, h7⟩ := hall 0 (by omega)
  obtain ⟨s, s', hs, hn, hs', hi, -⟩ := id h5
  have htold := (h7 0 s hs).1
  have hm := (ainv_steps (run_asteps h1 0) (ainv_init _ _)).told 0 s hs
  refine ⟨run, s, h1, h2, h3, h4, ?_, h5, by simp [wrappedCount, threeBytes], fun i => by rw [h6]; omega, hs, by omega, ?_,
    fun i t ht => ⟨by rw [(h7 i t ht).2.1]; omega, (h7 i t ht).2.2⟩, (threeBytes_layout_empty w).placeable, ?_⟩
  · intro i t ht
    cases i with
    | zero =>
      obtain ⟨f, f0, fk, fm⟩ := run_slots h1 ht
      have h1' := fk 1
      rw [show (run 1).proc.slots[0]? = _ from hs'] at h1'
      rw [hs] at ht
      cases ht
      have := fm 0
      rw [f0, ← Option.some.inj h1'] at this
      refine up_move this fun e => ?_
      rw [e, hn] at hi
      cases hi
    | succ i => exact stays_up (Run.shift h1 1) (k := 0) hs' hi i t (by show (run (1 + i)).proc.slots[0]? = _; rw [Nat.add_comm]; exact ht)
  · have e1 := congrArg List.length hm
    have : (messagesTo 0 ((run 0).trackers.found.take (run 0).delivered)).length ≤ (messagesTo 0 (run 0).trackers.found).length := by
      simp only [messagesTo, List.length_map]
      exact List.Sublist.length_le (List.Sublist.filter _ (List.take_sublist ..))
    omega
  · intro f hf
    rw [List.mem_singleton.mp hf]
    show some b!"a" ≠ some b!"downloads" ∧ some b!"a" ≠ some b!"test.log"
    decide

/-- What is refuted happens in every world: a torrent of three bytes. -/
example (w : World) (hsha : ∀ b, (w.sha b).length = 20) : ∃ run, Run w (Beside (threeBytes w.sha)) (fun _ => none) 1 run ∧ Fair run 0 ∧ Prompt run ∧ (∀ i, (run i).Free 0) ∧
    ∃ m, 11 ≤ m ∧ GetsAt run 0 0 m (threeBytes w.sha) ∧ ∀ i t, (run i).proc.slots[0]? = some t → t.sys.told.length = m := by
  obtain ⟨L, hL, hall⟩ := three_request w hsha
  obtain ⟨run, h1, h2, h3, h4, h5, h6, h7⟩ := hall (L - 1) (by omega)
  refine ⟨run, h1, h2, h3, h4, L, hL, ?_, fun i t ht => (h7 i t ht).1⟩
  rw [show L - 1 + 1 = L by omega] at h5
  exact h5

end RustBit
