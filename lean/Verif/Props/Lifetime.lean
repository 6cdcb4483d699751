/-
Property C116: when the threads of a torrent end.
-/
import Verif.Model.Lifetime
import Verif.Props.FairTrackers
import Verif.Spec.Lifetime

namespace RustBit
open Spec

/-! ### A writer in the middle of a piece -/

/-- A writer that is in the middle of a piece is alive, and the piece is still the first of its messages. -/
def WriterIn (s : Slot) : Prop := s.parts ≠ none → s.sys.ready ≠ [] ∧ s.sys.writerUp = true

theorem writer_step {w : World} {s t : Sys} (h : Step w s t) (hw : t.written = s.written) (hr : s.ready ≠ []) :
    t.ready ≠ [] ∧ t.writerUp = s.writerUp := by
  cases h with
  | announce | take | finishOk | finishErr | finishPanic => exact ⟨hr, rfl⟩
  | success | failed | collect | found => exact ⟨fun e => hr (List.append_eq_nil_iff.mp e).1, rfl⟩
  | write r ready hu hrd res fs h => simp at hw

theorem writerIn_work {w : World} {P P' : Proc} (h : PStep w P P') (hi : ∀ s ∈ P.slots, WriterIn s) : ∀ s ∈ P'.slots, WriterIn s := by
  have set : ∀ {k : Nat} {x : Slot}, WriterIn x → ∀ s ∈ P.slots.set k x, WriterIn s := by
    intro k x hx s hs
    rcases List.mem_or_eq_of_mem_set hs with hs | rfl
    · exact hi s hs
    · exact hx
  cases h with
  | start | log => exact hi
  | add =>
    intro s hs
    rcases List.mem_append.mp hs with hs | hs
    · exact hi s hs
    · rw [List.mem_singleton.mp hs]
      exact fun h => absurd rfl h
  | act k s t hk hst hw =>
    refine set fun hp => ?_
    obtain ⟨h1, h2⟩ := hi s (List.mem_of_getElem? hk) hp
    obtain ⟨g1, g2⟩ := writer_step hst hw h1
    exact ⟨g1, g2.trans h2⟩
  | begin k s r ready info ws hk hp hu hr => exact set fun _ => ⟨by simp [hr], hu⟩
  | beginCrash | partCrash | «end» => exact set fun h => absurd rfl h
  | part k s x xs fs hk hp => exact set fun _ => hi s (List.mem_of_getElem? hk) (by simp [hp])
  | stop => exact fun s hs => by cases hs

theorem writerIn_step {w : World} {A A' : App} (h : AStep w A A') (hi : ∀ s ∈ A.proc.slots, WriterIn s) : ∀ s ∈ A'.proc.slots, WriterIn s := by
  cases h with
  | start _ P' h | stop P' h => exact writerIn_work h hi
  | work _ P' h => exact writerIn_work h hi
  | add hl body infoHash h =>
    intro s hs
    rcases List.mem_append.mp hs with hs | hs
    · exact hi s hs
    · rw [List.mem_singleton.mp hs]
      exact fun h => absurd rfl h
  | track | stick => exact hi
  | deliver _ k p s hd hk =>
    intro x hx
    rcases List.mem_or_eq_of_mem_set hx with hx | rfl
    · exact hi x hx
    · exact hi s (List.mem_of_getElem? hk)

theorem writerIn_steps {w : World} {Q : Info → Prop} {A A' : App} (h : ASteps w Q A A') (hi : ∀ s ∈ A.proc.slots, WriterIn s) :
    ∀ s ∈ A'.proc.slots, WriterIn s := by
  induction h with
  | refl => exact hi
  | tail _ hs _ ih => exact writerIn_step hs ih

/-! ### Nobody gets an address that nobody has -/

theorem offer_holds {r : Registered} {ts ts' : List TrackerSys} (h : OfferAll r ts ts') {k : Nat} :
    (∃ t ∈ ts', ∃ x ∈ t.mail ++ t.pending, x.torrent = k) → r.torrent = k ∨ ∃ t ∈ ts, ∃ x ∈ t.mail ++ t.pending, x.torrent = k := by
  induction h with
  | nil => exact fun h => .inr h
  | @cons t t' ts ts' h _ ih =>
    rintro ⟨u, hu, x, hx, e⟩
    rcases List.mem_cons.mp hu with rfl | hu
    · cases h with
      | sent =>
        simp only [List.mem_append, List.mem_singleton] at hx
        rcases hx with (hx | rfl) | hx
        · exact .inr ⟨t, by simp, x, by simp [hx], e⟩
        · exact .inl e
        · exact .inr ⟨t, by simp, x, by simp [hx], e⟩
      | full | closed => exact .inr ⟨_, by simp, x, hx, e⟩
    · rcases ih ⟨u, hu, x, hx, e⟩ with h | ⟨v, hv, y, hy, e'⟩
      · exact .inl h
      · exact .inr ⟨v, by simp [hv], y, hy, e'⟩

theorem set_holds {ts : List TrackerSys} {m k : Nat} {t t' : TrackerSys} (hm : ts[m]? = some t)
    (hsub : ∀ x ∈ t'.mail ++ t'.pending, x ∈ t.mail ++ t.pending) :
    (∃ u ∈ ts.set m t', ∃ x ∈ u.mail ++ u.pending, x.torrent = k) → ∃ u ∈ ts, ∃ x ∈ u.mail ++ u.pending, x.torrent = k := by
  rintro ⟨u, hu, x, hx, e⟩
  rcases List.mem_or_eq_of_mem_set hu with hu | rfl
  · exact ⟨u, hu, x, hx, e⟩
  · exact ⟨t, List.mem_of_getElem? hm, x, hsub x hx, e⟩

/-- If the trackers do not have the address of a torrent they do not get it, except with a request, and do not find peers for it. -/
theorem holds_step {T T' : Trackers} (h : TStep T T') {k : Nat} (hn : ∀ r, T'.added = T.added ++ [r] → r.torrent ≠ k) (hk : ¬ T.Holds k) :
    ¬ T'.Holds k ∧ ∃ c, T'.found = T.found ++ c ∧ ∀ p, (k, p) ∉ c := by
  have h1 : ∀ r ∈ T.mail, r.torrent ≠ k := fun r hr e => hk (.inl ⟨r, hr, e⟩)
  have h2 : ¬ ∃ t ∈ T.trackers, ∃ r ∈ t.mail ++ t.pending, r.torrent = k := fun h => hk (.inr h)
  cases h with
  | add r =>
    refine ⟨?_, [], by simp, by simp⟩
    rintro (⟨x, hx, e⟩ | h)
    · rcases List.mem_append.mp hx with hx | hx
      · exact h1 x hx e
      · rw [List.mem_singleton.mp hx] at e
        exact hn r rfl e
    · exact h2 h
  | addFull r => exact ⟨hk, [], by simp, by simp⟩
  | pass r rest ts hm h =>
    refine ⟨?_, [], by simp, by simp⟩
    rintro (⟨x, hx, e⟩ | h')
    · exact h1 x (by rw [hm]; exact List.mem_cons_of_mem _ hx) e
    · rcases offer_holds h h' with e | h'
      · exact h1 r (by simp [hm]) e
      · exact h2 h'
  | spawn m t r rest hm hu hr =>
    refine ⟨?_, [], by simp, by simp⟩
    rintro (h | h)
    · exact hk (.inl h)
    · refine h2 (set_holds hm (fun x hx => ?_) h)
      simp only [List.mem_append, List.mem_singleton] at hx
      rw [hr]
      simp only [List.mem_append, List.mem_cons]
      rcases hx with hx | hx | rfl
      · exact .inl (.inr hx)
      · exact .inr hx
      · exact .inl (.inl rfl)
  | answer m t pre post r hm hu hp udp http tcp peerId peers traffic h =>
    refine ⟨?_, _, rfl, fun p hc => ?_⟩
    · rintro (h | h)
      · exact hk (.inl h)
      · refine h2 (set_holds hm (fun x hx => ?_) h)
        simp only [List.mem_append] at hx
        rw [hp]
        simp only [List.mem_append, List.mem_cons]
        rcases hx with hx | hx | hx
        · exact .inl hx
        · exact .inr (.inl hx)
        · exact .inr (.inr (.inr hx))
    · obtain ⟨q, -, e⟩ := List.mem_map.mp hc
      cases e
      exact h2 ⟨t, List.mem_of_getElem? hm, r, by simp [hp], rfl⟩
  | fail m t pre post r hm hu hp =>
    refine ⟨?_, [], by simp, by simp⟩
    rintro (h | h)
    · exact hk (.inl h)
    · refine h2 (set_holds hm (fun x hx => ?_) h)
      simp only [List.mem_append] at hx
      rw [hp]
      simp only [List.mem_append, List.mem_cons]
      rcases hx with hx | hx | hx
      · exact .inl hx
      · exact .inr (.inl hx)
      · exact .inr (.inr (.inr hx))
  | crash m t r hm hu hp =>
    refine ⟨?_, [], by simp, by simp⟩
    rintro (h | h)
    · exact hk (.inl h)
    · exact h2 (set_holds hm (fun x hx => by cases hx) h)

/-! ### Nothing happens to a torrent whose actor has ended -/

/-- The torrent is as it was, but for the disk, which is not its own, and messages to an actor that has ended in a panic. -/
def SameButMail (s t : Slot) : Prop := t.parts = s.parts ∧ ∃ fs mail, t.sys = { s.sys with fs, mail } ∧ (s.sys.down = false → mail = s.sys.mail)

theorem SameButMail.refl (s : Slot) : SameButMail s s := ⟨rfl, s.sys.fs, s.sys.mail, rfl, fun _ => rfl⟩

theorem SameButMail.trans {s t u : Slot} (h1 : SameButMail s t) (h2 : SameButMail t u) : SameButMail s u := by
  obtain ⟨p1, fs1, m1, e1, f1⟩ := h1
  obtain ⟨p2, fs2, m2, e2, f2⟩ := h2
  rw [e1] at e2 f2
  exact ⟨p2.trans p1, fs2, m2, e2, fun h => (f2 h).trans (f1 h)⟩

theorem told_found (s : Sys) (fs : FS) (p : PeerEndpoint) : ({ s with fs, mail := s.mail ++ [.found p] } : Sys).told = s.told ++ [p] := by
  simp [Sys.told, List.filterMap_append]

/-- Nobody works for the torrent: neither it nor its workers and its writer can do anything. -/
theorem released_inner {w : World} {s t : Sys} (hh : ¬ s.Holds) (hm : s.down = true ∨ s.mail = []) (h : Step w s t) (hw : t.told = s.told) : False := by
  have dead : ∀ {m : Mail} {rest : List Mail}, s.down = false → s.mail = m :: rest → False := by
    intro m rest hd he
    rcases hm with hm | hm
    · rw [hd] at hm; cases hm
    · rw [he] at hm; cases hm
  cases h with
  | announce bytes p hp =>
    have := told_found s s.fs p
    rw [show ({ s with mail := s.mail ++ [.found p] } : Sys).told = s.told ++ [p] from this] at hw
    exact absurd (List.append_right_eq_self.mp hw) (by simp)
  | take r queue hq hb => exact hh (.inl ⟨by simp [hq], by omega⟩)
  | finishOk pre post r hb => exact hh (.inr (.inl (by simp [hb])))
  | finishErr pre post r hb => exact hh (.inr (.inl (by simp [hb])))
  | finishPanic pre post r hb => exact hh (.inr (.inl (by simp [hb])))
  | success _ _ _ _ hd he => exact dead hd he
  | failed _ _ _ hd he => exact dead hd he
  | collect _ _ hd he => exact dead hd he
  | found _ _ hd he => exact dead hd he
  | write r ready hu hr => exact hh (.inr (.inr ⟨by simp [hr], hu⟩))

theorem released_work {w : World} {P P' : Proc} (h : PStep w P P') (hl : P.log ≠ none) (hr : P'.log ≠ none) (hn : P'.slots.length = P.slots.length)
    {k : Nat} {s : Slot} (hk : P.slots[k]? = some s) (hin : WriterIn s) (hh : ¬ s.sys.Holds) (hm : s.sys.down = true ∨ s.sys.mail = [])
    (ht : ∀ s', P'.slots[k]? = some s' → s'.sys.told = s.sys.told) : ∃ s', P'.slots[k]? = some s' ∧ SameButMail s s' := by
  have hlt := (List.getElem?_eq_some_iff.mp hk).1
  have hparts : s.parts = none := by
    cases e : s.parts with
    | none => rfl
    | some ws => exact absurd (.inr (.inr (hin (by simp [e])))) hh
  have other : ∀ {j : Nat} {s0 x : Slot}, P.slots[j]? = some s0 → (j = k → False) → ∃ s', (P.slots.set j x)[k]? = some s' ∧ SameButMail s s' :=
    fun hj hjk => ⟨s, by rw [List.getElem?_set_ne hjk]; exact hk, .refl s⟩
  cases h with
  | start hl' => exact absurd hl' hl
  | log => exact ⟨s, hk, .refl s⟩
  | add => simp at hn
  | act j s0 t hj hst hw =>
    refine other hj fun e => ?_
    subst e
    rw [hk] at hj
    cases hj
    exact released_inner (s := { s.sys with fs := P.fs }) hh hm hst (ht _ (List.getElem?_set_self hlt))
  | begin j s0 r ready info ws hj hp hu hrd =>
    refine other hj fun e => ?_
    subst e
    rw [hk] at hj
    cases hj
    exact hh (.inr (.inr ⟨by simp [hrd], hu⟩))
  | beginCrash j s0 r ready info hj hp hu hrd =>
    refine other hj fun e => ?_
    subst e
    rw [hk] at hj
    cases hj
    exact hh (.inr (.inr ⟨by simp [hrd], hu⟩))
  | part j s0 x xs fs hj hp =>
    refine other hj fun e => ?_
    subst e
    rw [hk] at hj
    cases hj
    rw [hparts] at hp
    cases hp
  | partCrash j s0 x xs fs r ready hj hp hrd =>
    refine other hj fun e => ?_
    subst e
    rw [hk] at hj
    cases hj
    rw [hparts] at hp
    cases hp
  | «end» j s0 r ready hj hp hrd =>
    refine other hj fun e => ?_
    subst e
    rw [hk] at hj
    cases hj
    rw [hparts] at hp
    cases hp
  | stop => exact absurd rfl hr

theorem holds_same {s t : Slot} (h : SameButMail s t) : t.sys.Holds ↔ s.sys.Holds := by
  obtain ⟨-, fs, mail, e, -⟩ := h
  rw [e]
  exact Iff.rfl

theorem released_step {w : World} {A A' : App} (hinv : AInv A) (hin : ∀ s ∈ A.proc.slots, WriterIn s) (h : AStep w A A') (hl : A.proc.log ≠ none)
    (hr : A'.proc.log ≠ none) {k : Nat} {s : Slot} (hk : A.proc.slots[k]? = some s) (hrel : A.Released k) :
    A'.Released k ∧ ∃ s', A'.proc.slots[k]? = some s' ∧ SameButMail s s' := by
  obtain ⟨⟨s1, e1, hend⟩, s2, e2, hh⟩ := hrel
  rw [hk] at e1 e2
  cases e1
  cases e2
  have hlt := (List.getElem?_eq_some_iff.mp hk).1
  have hm : s.sys.down = true ∨ s.sys.mail = [] := hend.imp_right fun h => h.2.1
  -- what is left to show if the trackers and the messages on their way keep what is needed
  have wrap : (∃ s', A'.proc.slots[k]? = some s' ∧ SameButMail s s') →
      (¬ A.trackers.Holds k → (∀ p, (k, p) ∉ A.trackers.found.drop A.delivered) →
        ¬ A'.trackers.Holds k ∧ ∀ p, (k, p) ∉ A'.trackers.found.drop A'.delivered) →
      A'.Released k ∧ ∃ s', A'.proc.slots[k]? = some s' ∧ SameButMail s s' := by
    rintro ⟨s', hs', hsame⟩ htr
    have hh' : ¬ s'.sys.Holds := fun h => hh ((holds_same hsame).mp h)
    refine ⟨⟨⟨s', hs', ?_⟩, s', hs', hh'⟩, s', hs', hsame⟩
    obtain ⟨-, fs, mail, e, f⟩ := hsame
    rcases hend with hd | ⟨g1, g2, g3⟩
    · exact .inl (by rw [e]; exact hd)
    · cases hd : s.sys.down with
      | true => exact .inl (by rw [e]; exact hd)
      | false =>
        obtain ⟨t1, t2⟩ := htr (fun h => g1 (.inl h)) g3
        refine .inr ⟨?_, by rw [e]; exact (f hd).trans g2, t2⟩
        rintro (h | ⟨x, hx, h⟩)
        · exact t1 h
        · rw [hs'] at hx
          cases hx
          exact hh' h
  cases h with
  | start hl' => exact absurd hl' hl
  | work _ P' hst hr' hn hq =>
    exact wrap (released_work hst hl hr' hn hk (hin s (List.mem_of_getElem? hk)) hh hm fun s' hs' => (hq k s s' hk hs').1) (fun h1 h2 => ⟨h1, h2⟩)
  | add _ body infoHash _ thread _ _ T' ht ha =>
    refine wrap ⟨s, by simpa [List.getElem?_append_left hlt] using hk, .refl s⟩ fun h1 h2 => ?_
    obtain ⟨g1, c, g2, g3⟩ := holds_step ht (k := k) (fun r hr e => by
      rw [ha] at hr
      have := List.append_cancel_left hr
      cases this
      have : A.proc.slots.length = k := e
      omega) h1
    refine ⟨g1, fun p hp => ?_⟩
    have hp : (k, p) ∈ T'.found.drop A.delivered := hp
    rw [g2, List.drop_append_of_le_length hinv.bound] at hp
    rcases List.mem_append.mp hp with hp | hp
    · exact h2 p hp
    · exact g3 p hp
  | track _ T' ht ha =>
    refine wrap ⟨s, hk, .refl s⟩ fun h1 h2 => ?_
    obtain ⟨g1, c, g2, g3⟩ := holds_step ht (k := k) (fun r hr e => by
      rw [ha] at hr
      exact absurd (List.self_eq_append_right.mp hr) (by simp)) h1
    refine ⟨g1, fun p hp => ?_⟩
    have hp : (k, p) ∈ T'.found.drop A.delivered := hp
    rw [g2, List.drop_append_of_le_length hinv.bound] at hp
    rcases List.mem_append.mp hp with hp | hp
    · exact h2 p hp
    · exact g3 p hp
  | deliver _ j p s0 hd hj =>
    have hdrop : ∀ x, x ∈ A.trackers.found.drop (A.delivered + 1) → x ∈ A.trackers.found.drop A.delivered := by
      intro x hx
      rw [← List.tail_drop] at hx
      exact List.mem_of_mem_tail hx
    refine wrap ?_ fun h1 h2 => ⟨h1, fun p hp => h2 p (hdrop _ hp)⟩
    by_cases hjk : j = k
    · subst hjk
      rw [hk] at hj
      cases hj
      refine ⟨_, List.getElem?_set_self hlt, rfl, _, _, rfl, fun hdn => ?_⟩
      rcases hend with h | ⟨-, -, h⟩
      · rw [h] at hdn; cases hdn
      · refine absurd ?_ (h p)
        have hlt := (List.getElem?_eq_some_iff.mp hd).1
        rw [List.drop_eq_getElem_cons hlt, (List.getElem?_eq_some_iff.mp hd).2]
        exact List.mem_cons_self
    · exact ⟨s, by simpa [List.getElem?_set_ne hjk] using hk, .refl s⟩
  | stick => exact wrap ⟨s, hk, .refl s⟩ (fun h1 h2 => ⟨h1, h2⟩)
  | stop _ _ hr' => exact absurd hr' hr

/-- C116: once the threads of a torrent have ended nothing happens to it any more as long as the program runs, whatever is requested and whatever other
torrents, trackers and peers do: it gets no message that is handled, no metadata, no piece, and nothing is written for it. -/
theorem C116_final {w : World} {Q : Info → Prop} {fs : FS} {n : Nat} {A A' : App} (h : ASteps w Q (App.init fs n) A) (hl : A.proc.log ≠ none)
    (hs : OnSteps w Q A A') {k : Nat} {s : Slot} (hk : A.proc.slots[k]? = some s) (hrel : A.Released k) :
    A'.Released k ∧ ∃ s', A'.proc.slots[k]? = some s' ∧ s'.parts = s.parts ∧
      ∃ fs mail, s'.sys = { s.sys with fs, mail } ∧ (s.sys.down = false → mail = s.sys.mail) := by
  have key : A'.proc.log ≠ none ∧ A'.Released k ∧ ∃ s', A'.proc.slots[k]? = some s' ∧ SameButMail s s' := by
    induction hs with
    | refl => exact ⟨hl, hrel, s, hk, .refl s⟩
    | tail hs hst hq hr ih =>
      obtain ⟨l1, r1, s1, k1, e1⟩ := ih
      have hA := h.trans hs.steps
      obtain ⟨r2, s2, k2, e2⟩ := released_step (ainv_steps hA (ainv_init fs n)) (writerIn_steps hA (fun x hx => by cases hx)) hst l1 hr k1 r1
      exact ⟨hr, r2, s2, k2, e1.trans e2⟩
  exact key.2

/-! ### The trackers forget a torrent -/

/-- What the trackers do while torrent `k`, which has been requested, is not requested again (it cannot be: every request is for a new one). -/
def Forgets (k : Nat) (T : Nat → Trackers) : Prop :=
  ∀ j, T (j + 1) = T j ∨ TStep (T j) (T (j + 1)) ∧ ∀ r, (T (j + 1)).added = (T j).added ++ [r] → r.torrent ≠ k

theorem run_forgets {w : World} {Q : Info → Prop} {fs : FS} {n : Nat} {run : Nat → App} (h : Run w Q fs n run) {k : Nat} {s : Slot}
    (hk : (run 0).proc.slots[k]? = some s) : Forgets k fun j => (run j).trackers := by
  intro j
  obtain ⟨t, ht⟩ := run_slot_at h (Nat.zero_le j) hk
  have hlt := (List.getElem?_eq_some_iff.mp ht).1
  have hst := h.step j
  have hr := h.on (j + 1)
  have hl := h.on j
  show (run (j + 1)).trackers = (run j).trackers ∨
    TStep (run j).trackers (run (j + 1)).trackers ∧ ∀ r, (run (j + 1)).trackers.added = (run j).trackers.added ++ [r] → r.torrent ≠ k
  generalize run j = A at hst hl hlt
  generalize run (j + 1) = A' at hst hr
  cases hst with
  | start hl' => exact absurd hl' hl
  | work => exact .inl rfl
  | add _ body infoHash _ thread _ _ T' ht ha =>
    refine .inr ⟨ht, fun r hr e => ?_⟩
    have := List.append_cancel_left (ha.symm.trans hr)
    cases this
    have : A.proc.slots.length = k := e
    omega
  | track _ T' ht ha =>
    refine .inr ⟨ht, fun r hr e => ?_⟩
    exact absurd (List.self_eq_append_right.mp (ha.symm.trans hr)) (by simp)
  | deliver => exact .inl rfl
  | stick => exact .inl rfl
  | stop _ _ hr' => exact absurd hr' hr

/-- What waits for the actor that passes torrents on only gets longer, by other torrents. -/
theorem waits_step {T T' : Trackers} (h : TStep T T') {k : Nat} (hn : ∀ r, T'.added = T.added ++ [r] → r.torrent ≠ k) :
    ∃ c, T'.passed ++ T'.mail = T.passed ++ T.mail ++ c ∧ ∀ r ∈ c, r.torrent ≠ k := by
  cases h with
  | add r => exact ⟨[r], by simp, fun x hx => by rw [List.mem_singleton.mp hx]; exact hn r rfl⟩
  | pass r rest ts hm h => exact ⟨[], by simp [hm], by simp⟩
  | _ => exact ⟨[], by simp, by simp⟩

theorem waits_later {k : Nat} {T : Nat → Trackers} (h : Forgets k T) (i d : Nat) :
    ∃ c, (T (i + d)).passed ++ (T (i + d)).mail = (T i).passed ++ (T i).mail ++ c ∧ ∀ r ∈ c, r.torrent ≠ k := by
  induction d with
  | zero => exact ⟨[], by simp, by simp⟩
  | succ d ih =>
    obtain ⟨c, h1, h2⟩ := ih
    rcases h (i + d) with e | ⟨hst, hn⟩
    · exact ⟨c, by rw [← Nat.add_assoc, e]; exact h1, h2⟩
    · obtain ⟨c', h3, h4⟩ := waits_step hst hn
      refine ⟨c ++ c', ?_, fun r hr => ?_⟩
      · rw [← Nat.add_assoc, h3, h1, List.append_assoc]
      · rcases List.mem_append.mp hr with hr | hr
        · exact h2 r hr
        · exact h4 r hr

theorem mem_of_suffix {α : Type} {a b c d : List α} (h : a ++ b = c ++ d) (hl : c.length ≤ a.length) : ∀ x ∈ b, x ∈ d := by
  intro x hx
  have h1 := congrArg (List.drop c.length) h
  rw [List.drop_left, List.drop_append_of_le_length hl] at h1
  rw [← h1]
  exact List.mem_append_right _ hx

theorem forgets_mail {k : Nat} {T : Nat → Trackers} (h : Forgets k T) (hp : ∀ i, (T i).mail ≠ [] → ∃ j, i ≤ j ∧ (T j).passed ≠ (T i).passed)
    (hs : ∀ i d, ∃ c, (T (i + d)).passed = (T i).passed ++ c) : ∃ i, ∀ j, i ≤ j → ∀ r ∈ (T j).mail, r.torrent ≠ k := by
  obtain ⟨N, hN⟩ : ∃ N, ((T 0).passed ++ (T 0).mail).length = N := ⟨_, rfl⟩
  have key : ∀ d j, N ≤ (T j).passed.length + d → ∃ j', N ≤ (T j').passed.length := by
    intro d
    induction d with
    | zero => exact fun j hj => ⟨j, hj⟩
    | succ d ih =>
      intro j hj
      by_cases hlt : N ≤ (T j).passed.length
      · exact ⟨j, hlt⟩
      · obtain ⟨c, hc, -⟩ := waits_later h 0 j
        obtain ⟨j', h1, h2⟩ := hp j (fun e => by
          have := congrArg List.length hc
          rw [Nat.zero_add, e, List.append_nil, List.length_append, hN] at this
          omega)
        obtain ⟨d', rfl⟩ := Nat.exists_eq_add_of_le h1
        obtain ⟨c', hc'⟩ := hs j d'
        have := longer hc' h2
        exact ih (j + d') (by omega)
  obtain ⟨i, hi⟩ := key N 0 (Nat.le_add_left _ _)
  refine ⟨i, fun j hj r hr => ?_⟩
  obtain ⟨c, hc, hck⟩ := waits_later h 0 j
  rw [Nat.zero_add] at hc
  obtain ⟨d, rfl⟩ := Nat.exists_eq_add_of_le hj
  obtain ⟨c', hc'⟩ := hs i d
  have := congrArg List.length hc'
  rw [List.length_append] at this
  exact hck r (mem_of_suffix hc (by omega) r hr)

/-- What comes after in the life of a tracker that is not asked about torrent `k` any more. -/
structure TForgets (k : Nat) (t t' : TrackerSys) : Prop where
  up : t'.up = true → t.up = true ∧ ∃ c, t'.spawned ++ t'.mail = t.spawned ++ t.mail ++ c ∧ ∀ r ∈ c, r.torrent ≠ k
  down : t'.up = false → t' = t ∨ t'.mail = [] ∧ t'.pending = []
  pending : (∀ r ∈ t.mail, r.torrent ≠ k) → (t'.pending.filter fun r => r.torrent = k).Sublist (t.pending.filter fun r => r.torrent = k)

theorem TForgets.refl (k : Nat) (t : TrackerSys) : TForgets k t t := ⟨fun h => ⟨h, [], by simp, by simp⟩, fun _ => .inl rfl, fun _ => .refl _⟩

theorem tforgets_offer {r : Registered} {k : Nat} (hr : r.torrent ≠ k) {ts ts' : List TrackerSys} (h : OfferAll r ts ts') :
    ∀ {m : Nat} {t : TrackerSys}, ts[m]? = some t → ∃ t', ts'[m]? = some t' ∧ TForgets k t t' := by
  induction h with
  | nil => intro m t h; simp at h
  | cons h _ ih =>
    intro m t hm
    cases m with
    | zero =>
      cases hm
      refine ⟨_, rfl, ?_⟩
      cases h with
      | sent hu =>
        exact ⟨fun h => ⟨h, [r], by simp, by simpa using hr⟩, fun h => absurd (hu.symm.trans h) (by simp), fun _ => .refl _⟩
      | full => exact .refl _ _
      | closed => exact .refl _ _
    | succ m => exact ih hm

theorem tforgets_set {ts : List TrackerSys} {i k m : Nat} {t x y : TrackerSys} (hm : ts[m]? = some t) (hk : ts[i]? = some x) (h : TForgets k x y) :
    ∃ t', (ts.set i y)[m]? = some t' ∧ TForgets k t t' := by
  by_cases e : i = m
  · subst e
    rw [hk] at hm
    cases hm
    exact ⟨y, List.getElem?_set_self (List.getElem?_eq_some_iff.mp hk).1, h⟩
  · exact ⟨t, by rw [List.getElem?_set_ne e]; exact hm, .refl _ _⟩

theorem tforgets_step {T T' : Trackers} (h : TStep T T') {k : Nat} (hm : ∀ r ∈ T.mail, r.torrent ≠ k) {m : Nat} {t : TrackerSys}
    (ht : T.trackers[m]? = some t) : ∃ t', T'.trackers[m]? = some t' ∧ TForgets k t t' := by
  have ended : ∀ {x y : TrackerSys}, x.up = true → y.up = x.up → y.spawned = x.spawned → y.mail = x.mail → y.pending.Sublist x.pending → TForgets k x y := by
    intro x y hu h1 h2 h3 h4
    refine ⟨fun _ => ⟨hu, [], by rw [h2, h3]; simp, by simp⟩, fun h => ?_, fun _ => h4.filter _⟩
    rw [h1, hu] at h
    cases h
  cases h with
  | add | addFull => exact ⟨t, ht, .refl _ _⟩
  | pass r rest ts hr h => exact tforgets_offer (hm r (by simp [hr])) h ht
  | spawn i x r rest hi hu hx =>
    refine tforgets_set ht hi ⟨fun _ => ⟨hu, [], by simp [hx], by simp⟩, fun h => ?_, fun hk => ?_⟩
    · exact absurd (hu.symm.trans h) (by simp)
    · show ((x.pending ++ [r]).filter _).Sublist _
      rw [List.filter_append, List.filter_cons_of_neg (by simpa using hk r (by simp [hx])), List.filter_nil, List.append_nil]
      exact .refl _
  | answer i x pre post r hi hu hp =>
    exact tforgets_set ht hi (ended hu rfl rfl rfl (by rw [hp]; exact List.Sublist.append_left (List.sublist_cons_self _ _) _))
  | fail i x pre post r hi hu hp =>
    exact tforgets_set ht hi (ended hu rfl rfl rfl (by rw [hp]; exact List.Sublist.append_left (List.sublist_cons_self _ _) _))
  | crash i x r hi hu hp =>
    exact tforgets_set ht hi ⟨fun h => (by cases h), fun _ => .inr ⟨rfl, rfl⟩, fun _ => List.nil_sublist _⟩

theorem forgets_steps {k : Nat} {T : Nat → Trackers} (h : Forgets k T) (i d : Nat) : TSteps (T i) (T (i + d)) := by
  induction d with
  | zero => exact .refl _
  | succ d ih =>
    rcases h (i + d) with e | ⟨hst, -⟩
    · rw [← Nat.add_assoc, e]
      exact ih
    · exact .tail ih hst

theorem Forgets.shift {k : Nat} {T : Nat → Trackers} (h : Forgets k T) (a : Nat) : Forgets k fun j => T (a + j) := fun j => h (a + j)

/-- What waits for a tracker only gets longer, by other torrents. -/
theorem tracker_later {k : Nat} {T : Nat → Trackers} (h : Forgets k T) (hm : ∀ j, ∀ r ∈ (T j).mail, r.torrent ≠ k) {m : Nat} {t0 : TrackerSys}
    (h0 : (T 0).trackers[m]? = some t0) (j : Nat) : ∃ t, (T j).trackers[m]? = some t ∧
      (t.up = true → t0.up = true ∧ ∃ c, t.spawned ++ t.mail = t0.spawned ++ t0.mail ++ c ∧ ∀ r ∈ c, r.torrent ≠ k) := by
  induction j with
  | zero => exact ⟨t0, h0, fun hu => ⟨hu, [], by simp, by simp⟩⟩
  | succ j ih =>
    obtain ⟨t, h1, h2⟩ := ih
    rcases h j with e | ⟨hst, -⟩
    · exact ⟨t, by rw [e]; exact h1, h2⟩
    · obtain ⟨t', h3, h4⟩ := tforgets_step hst (hm j) h1
      refine ⟨t', h3, fun hu => ?_⟩
      obtain ⟨hu', c, e1, e2⟩ := h4.up hu
      obtain ⟨hu0, c0, e3, e4⟩ := h2 hu'
      refine ⟨hu0, c0 ++ c, by rw [e1, e3, List.append_assoc], fun r hr => ?_⟩
      rcases List.mem_append.mp hr with hr | hr
      · exact e4 r hr
      · exact e2 r hr

theorem forgets_asked {k : Nat} {T : Nat → Trackers} (h : Forgets k T) (hm : ∀ j, ∀ r ∈ (T j).mail, r.torrent ≠ k) {m : Nat} {t0 : TrackerSys}
    (h0 : (T 0).trackers[m]? = some t0)
    (asks : ∀ (i : Nat) (t : TrackerSys), (T i).trackers[m]? = some t → t.mail ≠ [] →
      ∃ (j : Nat) (t' : TrackerSys), i ≤ j ∧ (T j).trackers[m]? = some t' ∧ (t'.spawned ≠ t.spawned ∨ t'.up = false))
    (down : ∀ (j : Nat) (t : TrackerSys), (T j).trackers[m]? = some t → t.up = false → t.mail = [] ∧ t.pending = []) :
    ∃ i, ∀ j, i ≤ j → ∀ t, (T j).trackers[m]? = some t → ∀ r ∈ t.mail, r.torrent ≠ k := by
  obtain ⟨N, hN⟩ : ∃ N, (t0.spawned ++ t0.mail).length = N := ⟨_, rfl⟩
  have key : ∀ d j t, (T j).trackers[m]? = some t → N ≤ t.spawned.length + d →
      ∃ j' t', (T j').trackers[m]? = some t' ∧ (N ≤ t'.spawned.length ∨ t'.up = false) := by
    intro d
    induction d with
    | zero => exact fun j t ht hle => ⟨j, t, ht, .inl hle⟩
    | succ d ih =>
      intro j t ht hle
      by_cases hlt : N ≤ t.spawned.length
      · exact ⟨j, t, ht, .inl hlt⟩
      · cases hu : t.up with
        | false => exact ⟨j, t, ht, .inr hu⟩
        | true =>
          obtain ⟨j', t', h1, h2, h3⟩ := asks j t ht (by
            intro e
            obtain ⟨x, hx, hc⟩ := tracker_later h hm h0 j
            rw [ht] at hx
            cases hx
            obtain ⟨-, c, hc, -⟩ := hc hu
            have := congrArg List.length hc
            rw [e, List.append_nil, List.length_append, hN] at this
            omega)
          rcases h3 with h3 | h3
          · obtain ⟨d', rfl⟩ := Nat.exists_eq_add_of_le h1
            obtain ⟨t'', g1, g2⟩ := tlater_steps (forgets_steps h j d') ht
            rw [h2] at g1
            cases g1
            obtain ⟨c, hc⟩ := g2.spawned
            have := longer hc h3
            exact ih (j + d') t' h2 (by omega)
          · exact ⟨j', t', h2, .inr h3⟩
  obtain ⟨i, ti, hti, hor⟩ := key N 0 t0 h0 (Nat.le_add_left _ _)
  refine ⟨i, fun j hj t ht r hr => ?_⟩
  cases hu : t.up with
  | false => rw [(down j t ht hu).1] at hr; cases hr
  | true =>
    obtain ⟨d, rfl⟩ := Nat.exists_eq_add_of_le hj
    obtain ⟨t', g1, g2⟩ := tlater_steps (forgets_steps h i d) hti
    rw [ht] at g1
    cases g1
    obtain ⟨hui, -⟩ := g2.up hu
    rcases hor with hor | hor
    · obtain ⟨c, hc⟩ := g2.spawned
      have hlen := congrArg List.length hc
      rw [List.length_append] at hlen
      obtain ⟨x, hx, hx'⟩ := tracker_later h hm h0 (i + d)
      rw [ht] at hx
      cases hx
      obtain ⟨-, c', hc', hk⟩ := hx' hu
      exact hk r (mem_of_suffix hc' (by omega) r hr)
    · rw [hui] at hor
      cases hor

theorem forgets_lookups {k : Nat} {T : Nat → Trackers} (h : Forgets k T) (hm : ∀ j, ∀ r ∈ (T j).mail, r.torrent ≠ k) {m : Nat} {t0 : TrackerSys}
    (h0 : (T 0).trackers[m]? = some t0) (hn : ∀ j t, (T j).trackers[m]? = some t → ∀ r ∈ t.mail, r.torrent ≠ k)
    (ends : ∀ (i : Nat) (t : TrackerSys) (r : Registered), (T i).trackers[m]? = some t → r ∈ t.pending → r.torrent = k →
      ∃ (j : Nat) (t' : TrackerSys), i ≤ j ∧ (T j).trackers[m]? = some t' ∧ r ∉ t'.pending) :
    ∃ i, ∀ j, i ≤ j → ∀ t, (T j).trackers[m]? = some t → ∀ r ∈ t.pending, r.torrent ≠ k := by
  have mono : ∀ (i d : Nat) (t : TrackerSys), (T i).trackers[m]? = some t → ∃ t', (T (i + d)).trackers[m]? = some t' ∧
      (t'.pending.filter fun r => r.torrent = k).Sublist (t.pending.filter fun r => r.torrent = k) := by
    intro i d
    induction d with
    | zero => exact fun t ht => ⟨t, ht, .refl _⟩
    | succ d ih =>
      intro t ht
      obtain ⟨t', h1, h2⟩ := ih t ht
      rcases h (i + d) with e | ⟨hst, -⟩
      · exact ⟨t', by rw [← Nat.add_assoc, e]; exact h1, h2⟩
      · obtain ⟨t'', h3, h4⟩ := tforgets_step hst (hm (i + d)) h1
        exact ⟨t'', h3, (h4.pending (hn _ _ h1)).trans h2⟩
  have key : ∀ (N i : Nat) (t : TrackerSys), (T i).trackers[m]? = some t → (t.pending.filter fun r => r.torrent = k).length = N →
      ∃ i' t', (T i').trackers[m]? = some t' ∧ (t'.pending.filter fun r => r.torrent = k) = [] := by
    intro N
    induction N using Nat.strongRecOn with
    | ind N ih =>
      intro i t ht hlen
      cases hp : t.pending.filter fun r => r.torrent = k with
      | nil => exact ⟨i, t, ht, hp⟩
      | cons r rest =>
        have hr : r ∈ t.pending.filter fun r => r.torrent = k := by rw [hp]; exact List.mem_cons_self
        have hr' := List.mem_filter.mp hr
        obtain ⟨j, t', h1, h2, h3⟩ := ends i t r ht hr'.1 (by simpa using hr'.2)
        obtain ⟨d, rfl⟩ := Nat.exists_eq_add_of_le h1
        obtain ⟨t'', g1, g2⟩ := mono i d t ht
        rw [h2] at g1
        cases g1
        refine ih _ ?_ (i + d) t' h2 rfl
        rw [← hlen]
        refine Nat.lt_of_le_of_ne g2.length_le fun e => h3 ?_
        have := g2.eq_of_length e
        rw [← this] at hr
        exact (List.mem_filter.mp hr).1
  obtain ⟨i, ti, h1, h2⟩ := key _ 0 t0 h0 rfl
  refine ⟨i, fun j hj t ht r hr e => ?_⟩
  obtain ⟨d, rfl⟩ := Nat.exists_eq_add_of_le hj
  obtain ⟨t', g1, g2⟩ := mono i d ti h1
  rw [ht] at g1
  cases g1
  rw [h2] at g2
  have : r ∈ t.pending.filter fun r => r.torrent = k := List.mem_filter.mpr ⟨hr, by simpa using e⟩
  rw [List.sublist_nil.mp g2] at this
  cases this

/-- If something holds from some time on for every one of finitely many, it holds for all of them from some time on. -/
theorem all_from {P : Nat → Nat → Prop} (h : ∀ m, ∃ i, ∀ j, i ≤ j → P m j) : ∀ d, ∃ i, ∀ j, i ≤ j → ∀ m, m < d → P m j := by
  intro d
  induction d with
  | zero => exact ⟨0, fun j _ m hm => absurd hm (Nat.not_lt_zero _)⟩
  | succ d ih =>
    obtain ⟨a, ha⟩ := ih
    obtain ⟨b, hb⟩ := h d
    refine ⟨a + b, fun j hj m hm => ?_⟩
    by_cases e : m = d
    · subst e
      exact hb j (by omega)
    · exact ha j (by omega) m (by omega)

theorem eighteen_trackers {T : Trackers} (h : TSteps Trackers.init T) : T.trackers.length = 18 := by
  have e := congrArg List.length (tinv_steps h tinv_init).urls
  rw [List.length_map] at e
  exact e.trans (by decide +kernel)

/-- C116: in every run in which nothing is left lying about, if every lookup for a torrent ends, there comes a time from which on no tracker has its address,
and it gets no further peers. -/
theorem C116_forgotten {w : World} {Q : Info → Prop} {fs : FS} {n : Nat} {run : Nat → App} (h : Run w Q fs n run) (hp : Prompt run) {k : Nat} {s : Slot}
    (hk : (run 0).proc.slots[k]? = some s) (he : LookupsEnd run k) :
    ∃ i, ∀ j, i ≤ j → ¬ (run j).trackers.Holds k ∧ ∀ p, (k, p) ∉ (run j).trackers.found.drop (run j).delivered := by
  have hF := run_forgets h hk
  have hT : ∀ j, TSteps Trackers.init (run j).trackers := fun j => (ainv_steps (run_asteps h j) (ainv_init fs n)).trackers
  have back : ∀ {a i j : Nat}, a + i ≤ j → ∃ j', i ≤ j' ∧ a + j' = j := fun hj => ⟨_, Nat.le_sub_of_add_le (by omega), Nat.add_sub_cancel' (by omega)⟩
  -- the actor that passes torrents on
  obtain ⟨i1, h1⟩ := forgets_mail hF hp.passes fun i d => (passed_steps (forgets_steps hF i d)).1
  have hF1 := hF.shift i1
  have hm1 : ∀ j, ∀ r ∈ (run (i1 + j)).trackers.mail, r.torrent ≠ k := fun j => h1 _ (by omega)
  -- the mailboxes of the trackers
  have h2' : ∀ m : Nat, ∃ i, ∀ j, i ≤ j → ∀ t : TrackerSys, (run (i1 + j)).trackers.trackers[m]? = some t → ∀ r ∈ t.mail, r.torrent ≠ k := by
    intro m
    cases h0 : (run i1).trackers.trackers[m]? with
    | none =>
      refine ⟨0, fun j _ t ht => ?_⟩
      have := List.getElem?_eq_none_iff.mp h0
      have := (List.getElem?_eq_some_iff.mp ht).1
      rw [eighteen_trackers (hT _)] at *
      omega
    | some t0 =>
      refine forgets_asked hF1 hm1 h0 (fun i t ht hne => ?_) fun j t ht hu =>
        ((tinv_steps (hT (i1 + j)) tinv_init).each t (List.mem_of_getElem? ht)).down hu
      obtain ⟨j, t', e1, e2, e3⟩ := hp.asks (i1 + i) m t ht hne
      obtain ⟨j', hj', rfl⟩ := back e1
      exact ⟨j', t', hj', e2, e3⟩
  obtain ⟨i2, h2⟩ := all_from h2' 18
  -- the lookups
  have h3' : ∀ m : Nat, ∃ i, ∀ j, i ≤ j → ∀ t : TrackerSys, (run (i1 + i2 + j)).trackers.trackers[m]? = some t → ∀ r ∈ t.pending, r.torrent ≠ k := by
    intro m
    cases h0 : (run (i1 + i2)).trackers.trackers[m]? with
    | none =>
      refine ⟨0, fun j _ t ht => ?_⟩
      have := List.getElem?_eq_none_iff.mp h0
      have := (List.getElem?_eq_some_iff.mp ht).1
      rw [eighteen_trackers (hT _)] at *
      omega
    | some t0 =>
      refine forgets_lookups (hF.shift (i1 + i2)) (fun j => h1 _ (by omega)) h0 (fun j t ht => ?_) (fun i t r ht hr e => ?_)
      · have hlt := (List.getElem?_eq_some_iff.mp ht).1
        rw [eighteen_trackers (hT _)] at hlt
        exact h2 (i2 + j) (by omega) m hlt t (by rw [← Nat.add_assoc]; exact ht)
      · obtain ⟨j, t', e1, e2, e3⟩ := he (i1 + i2 + i) m t r ht hr e
        obtain ⟨j', hj', rfl⟩ := back e1
        exact ⟨j', t', hj', e2, e3⟩
  obtain ⟨i3, h3⟩ := all_from h3' 18
  obtain ⟨i, hi⟩ : ∃ i, i1 + i2 + i3 = i := ⟨_, rfl⟩
  have hno : ∀ j, i ≤ j → ¬ (run j).trackers.Holds k := by
    rintro j hj (⟨r, hr, e⟩ | ⟨t, ht, r, hr, e⟩)
    · exact h1 j (by omega) r hr e
    · obtain ⟨m, hm⟩ := List.getElem?_of_mem ht
      have hlt := (List.getElem?_eq_some_iff.mp hm).1
      rw [eighteen_trackers (hT _)] at hlt
      rcases List.mem_append.mp hr with hr | hr
      · obtain ⟨j', hj', rfl⟩ := back (a := i1) (i := i2) (j := j) (by omega)
        exact h2 j' hj' m hlt t hm r hr e
      · obtain ⟨j', hj', rfl⟩ := back (a := i1 + i2) (i := i3) (j := j) (by omega)
        exact h3 j' hj' m hlt t hm r hr e
  -- the messages on their way
  have hfound : ∀ d, ∃ c, (run (i + d)).trackers.found = (run i).trackers.found ++ c ∧ ∀ p, (k, p) ∉ c := by
    intro d
    induction d with
    | zero => exact ⟨[], by simp, by simp⟩
    | succ d ih =>
      obtain ⟨c, e1, e2⟩ := ih
      rcases hF (i + d) with e | ⟨hst, hn⟩
      · exact ⟨c, by rw [← Nat.add_assoc]; exact (congrArg Trackers.found e).trans e1, e2⟩
      · obtain ⟨-, c', e3, e4⟩ := holds_step hst hn (hno _ (by omega))
        refine ⟨c ++ c', by rw [← Nat.add_assoc, ← List.append_assoc, ← e1]; exact e3, fun p hp => ?_⟩
        rcases List.mem_append.mp hp with hp | hp
        · exact e2 p hp
        · exact e4 p hp
  have hdel : ∀ d j, i ≤ j → (run i).trackers.found.length ≤ (run j).delivered + d → ∃ j', i ≤ j' ∧ (run i).trackers.found.length ≤ (run j').delivered := by
    intro d
    induction d with
    | zero => exact fun j hj hle => ⟨j, hj, hle⟩
    | succ d ih =>
      intro j hj hle
      by_cases hlt : (run i).trackers.found.length ≤ (run j).delivered
      · exact ⟨j, hj, hlt⟩
      · obtain ⟨d', rfl⟩ := Nat.exists_eq_add_of_le hj
        obtain ⟨c, hc, -⟩ := hfound d'
        have := congrArg List.length hc
        rw [List.length_append] at this
        obtain ⟨j', g1, g2⟩ := hp.delivers (i + d') (by omega)
        have := (run_tracked h g1).2
        exact ih j' (by omega) (by omega)
  obtain ⟨i4, hi4, h4⟩ := hdel _ i (Nat.le_refl _) (Nat.le_add_left _ _)
  refine ⟨i4, fun j hj => ⟨hno j (by omega), fun p hp => ?_⟩⟩
  have := (run_tracked h hj).2
  obtain ⟨d, rfl⟩ := Nat.exists_eq_add_of_le (show i ≤ j by omega)
  obtain ⟨c, hc, hc'⟩ := hfound d
  rw [hc, List.drop_append, List.drop_eq_nil_of_le (by omega), List.nil_append] at hp
  exact hc' p (List.mem_of_mem_drop hp)

/-- What is left of a torrent that has no metadata. -/
theorem fresh_holds {s : Sys} (h : Fresh s) : ¬ s.Holds := by
  rintro (⟨h1, -⟩ | h1 | ⟨h1, -⟩)
  · exact h1 h.queue
  · exact h1 h.busy
  · exact h1 h.ready

theorem down_move {w : World} {s t : Slot} (h : Move w s t) (hd : s.sys.down = true) : t.sys.down = true := by
  cases h with
  | still _ fs e => rw [e]; exact hd
  | told _ fs p e => rw [e]; exact hd
  | begin ws _ e => rw [e]; exact hd
  | part x xs _ e => rw [e]; exact hd
  | done r ready up _ e => rw [e]; exact hd
  | act _ fs hst hw =>
    generalize t.sys = u at hst hw
    cases hst with
    | announce | take | finishOk | finishErr | finishPanic | write => exact hd
    | success _ _ _ _ hd' | failed _ _ _ hd' | collect _ _ hd' | found _ _ hd' =>
      have hd' : s.sys.down = false := hd'
      rw [hd] at hd'
      cases hd'

/-- C116: in every fair run in which nothing is left lying about, a torrent of which downloads do not fail for ever, whose thread is not stuck, and whose lookups
all end, gives back its threads: the six of them have ended, and never come back. Missing: see `C116_refuted` for lookups, C83 for the thread, C111 for
downloads that fail. -/
theorem C116_fair_partial {w : World} {Q : Info → Prop} {fs : FS} {n : Nat} {run : Nat → App} (h : Run w Q fs n run) (hp : Prompt run) {k : Nat} (hf : Fair run k)
    (hfree : ∀ i, (run i).Free k) {s : Slot} (hk : (run 0).proc.slots[k]? = some s) (he : LookupsEnd run k) {B : Nat}
    (hB : ∀ i t, (run i).proc.slots[k]? = some t → downloadsFailed t.sys ≤ B) : ∃ i, ∀ j, i ≤ j → (run j).Released k := by
  obtain ⟨f, f0, fk, fm⟩ := run_slots h hk
  have hamong : ∀ j, Among w (f j).sys := fun j => C84_among (run_asteps h j) (List.mem_of_getElem? (fk j))
  by_cases hdown : ∃ i, (f i).sys.down = true
  · obtain ⟨i, hi⟩ := hdown
    refine ⟨i, fun j hj => ?_⟩
    obtain ⟨d, rfl⟩ := Nat.exists_eq_add_of_le hj
    have hd : (f (i + d)).sys.down = true := by
      clear hj
      induction d with
      | zero => exact hi
      | succ d ih => exact down_move (fm (i + d)) ih
    refine ⟨⟨_, fk _, .inl hd⟩, _, fk _, ?_⟩
    rcases among_inv (hamong (i + d)) with hfr | ⟨_, _, hkn⟩
    · exact fresh_holds hfr
    · rw [hkn.up] at hd
      cases hd
  · have hup : StaysUp run k := by
      intro i t ht
      rw [fk i] at ht
      cases ht
      cases e : (f i).sys.down with
      | false => rfl
      | true => exact absurd ⟨i, e⟩ hdown
    obtain ⟨a, ha⟩ := C116_forgotten h hp hk he
    -- there is nothing left to do
    have rest : ∃ i, ∀ j, i ≤ j → (f j).sys.mail = [] ∧ ¬ (f j).sys.Holds := by
      by_cases hinfo : ∃ i info, (f i).sys.torrent.info = some info
      · obtain ⟨i, info, hi⟩ := hinfo
        obtain ⟨b, hb⟩ := comes_to_rest (Run.shift h i) (Fair.shift hf i) (fun j => hfree (i + j)) (fk i) hi (fun j t => hB (i + j) t)
        refine ⟨i + b, fun j hj => ?_⟩
        obtain ⟨d, rfl⟩ := Nat.exists_eq_add_of_le (show i ≤ j by omega)
        obtain ⟨t, e1, -, -, e2, e3, e4, e5⟩ := hb d (by omega)
        rw [fk] at e1
        cases e1
        refine ⟨e2, ?_⟩
        rintro (⟨h1, -⟩ | h1 | ⟨h1, h2⟩)
        · exact h1 e3
        · exact h1 e4
        · exact h1 (e5 h2)
      · obtain ⟨l, b, hb⟩ := C112_heard h hf hfree hup hk
        refine ⟨b, fun j hj => ?_⟩
        obtain ⟨t, e1, -, e2, -⟩ := hb j hj
        rw [fk] at e1
        cases e1
        rcases among_inv (hamong j) with hfr | ⟨info, _, hkn⟩
        · refine ⟨?_, fresh_holds hfr⟩
          cases hm : (f j).sys.mail with
          | nil => rfl
          | cons x xs =>
            obtain ⟨p, rfl, -⟩ := hfr.mail x (by simp [hm])
            exact absurd (by simp [hm]) (e2 p)
        · exact absurd ⟨j, info, hkn.hasInfo⟩ hinfo
    obtain ⟨b, hb⟩ := rest
    refine ⟨a + b, fun j hj => ?_⟩
    obtain ⟨a1, a2⟩ := ha j (by omega)
    obtain ⟨b1, b2⟩ := hb j (by omega)
    refine ⟨⟨_, fk j, .inr ⟨?_, b1, a2⟩⟩, _, fk j, b2⟩
    rintro (h1 | ⟨x, hx, h1⟩)
    · exact a1 h1
    · rw [fk j] at hx
      cases hx
      exact b2 h1

/-! ### Lookups can end, and need not -/

/-- A tracker that never answers. -/
theorem lookup_hangs {k : Nat} {u : TrackerUrl} (hk : builtinUrls[k]? = some u) (hash : Bytes) :
    (getPeersByTracker ⟨true, fun _ => true, fun _ => true, fun _ => .never⟩ (fun _ => .failed) [] u hash).1 = .hang := by
  obtain ⟨h, p, e⟩ := builtin_lookup hk
  rw [e]
  rfl

/-- All lookups of a tracker can end. -/
theorem end_tracker : ∀ (l : List Registered) {T : Trackers} {k : Nat} {t : TrackerSys}, TSteps Trackers.init T → T.trackers[k]? = some t → t.up = true → t.pending = l →
    ∃ T' t', TSteps T T' ∧ T'.added = T.added ∧ T'.found = T.found ∧ T'.mail = T.mail ∧ T'.trackers[k]? = some t' ∧ t'.mail = t.mail ∧ t'.pending = [] ∧
      ∀ j, j ≠ k → T'.trackers[j]? = T.trackers[j]? := by
  intro l
  induction l with
  | nil => exact fun {T k t} _ hk _ hp => ⟨T, t, .refl _, rfl, rfl, rfl, hk, rfl, hp, fun _ _ => rfl⟩
  | cons r l ih =>
    intro T k t hT hk hu hp
    have hurl : builtinUrls[k]? = some t.url := by
      rw [← (tinv_steps hT tinv_init).urls, List.getElem?_map, hk]
      rfl
    obtain ⟨e, traffic, he⟩ := deaf_fails hurl r.infoHash
    have st := TStep.fail T k t [] l r hk hu hp _ _ _ e _ he
    obtain ⟨T', t', h1, h2, h3, h4, h5, h6, h7, h8⟩ := ih
      (T := { T with trackers := T.trackers.set k { t with pending := [] ++ l, failed := t.failed ++ [r] } }) (k := k)
      (.tail hT st) (List.getElem?_set_self (List.getElem?_eq_some_iff.mp hk).1) hu rfl
    exact ⟨T', t', tsteps_trans (.tail (.refl _) st) h1, h2, h3, h4, h5, h6, h7, fun j hj => (h8 j hj).trans (List.getElem?_set_ne (Ne.symm hj))⟩

/-- All lookups can end. -/
theorem end_all {T : Trackers} (h : TSteps Trackers.init T) (hd : Drained T) : ∃ T', TSteps T T' ∧ T'.added = T.added ∧ T'.found = T.found ∧ Drained T' ∧
    ∀ (m : Nat) (t : TrackerSys), T'.trackers[m]? = some t → t.pending = [] := by
  have key : ∀ d, ∃ T', TSteps T T' ∧ T'.added = T.added ∧ T'.found = T.found ∧ Drained T' ∧
      ∀ (m : Nat) (t : TrackerSys), m < d → T'.trackers[m]? = some t → t.pending = [] := by
    intro d
    induction d with
    | zero => exact ⟨T, .refl _, rfl, rfl, hd, fun m t hm => by omega⟩
    | succ d ih =>
      obtain ⟨T2, g1, g2, g3, g4, g5⟩ := ih
      cases hx : T2.trackers[d]? with
      | none =>
        refine ⟨T2, g1, g2, g3, g4, fun m t hm ht => ?_⟩
        by_cases e : m = d
        · subst e
          rw [hx] at ht
          cases ht
        · exact g5 m t (by omega) ht
      | some x =>
        cases hu : x.up with
        | false =>
          refine ⟨T2, g1, g2, g3, g4, fun m t hm ht => ?_⟩
          by_cases e : m = d
          · subst e
            rw [hx] at ht
            have ht := Option.some.inj ht
            subst ht
            exact ((tinv_steps (tsteps_trans h g1) tinv_init).each _ (List.mem_of_getElem? hx)).down hu |>.2
          · exact g5 m t (by omega) ht
        | true =>
          obtain ⟨T3, x', e1, e2, e3, e4, e5, e6, e7, e8⟩ := end_tracker _ (tsteps_trans h g1) hx hu rfl
          refine ⟨T3, tsteps_trans g1 e1, e2.trans g2, e3.trans g3, ⟨e4.trans g4.1, fun m t ht => ?_⟩, fun m t hm ht => ?_⟩
          · by_cases e : m = d
            · subst e
              rw [e5] at ht
              cases ht
              exact e6.trans (g4.2 m x hx)
            · rw [e8 m e] at ht
              exact g4.2 m t ht
          · by_cases e : m = d
            · subst e
              rw [e5] at ht
              cases ht
              exact e7
            · rw [e8 m e] at ht
              exact g5 m t (by omega) ht
  obtain ⟨T', g1, g2, g3, g4, g5⟩ := key 18
  refine ⟨T', g1, g2, g3, g4, fun m t ht => g5 m t ?_ ht⟩
  have := (List.getElem?_eq_some_iff.mp ht).1
  rw [eighteen_trackers (tsteps_trans h g1)] at this
  exact this

theorem run_on {w : World} {Q : Info → Prop} {fs : FS} {n : Nat} {run : Nat → App} (h : Run w Q fs n run) {i j : Nat} (hij : i ≤ j) :
    OnSteps w Q (run i) (run j) := by
  obtain ⟨d, rfl⟩ := Nat.exists_eq_add_of_le hij
  clear hij
  induction d with
  | zero => exact .refl _
  | succ d ih => exact .tail ih (h.step (i + d)) (h.infos _) (h.on _)

/-- What is released is so from then on: what is not released in the end never was. -/
theorem never_released {w : World} {Q : Info → Prop} {fs : FS} {n : Nat} {run : Nat → App} (h : Run w Q fs n run) {k m : Nat}
    (hm : ∀ j, m ≤ j → ¬ (run j).Released k) (i : Nat) : ¬ (run i).Released k := by
  intro hr
  obtain ⟨s, hs, -⟩ := id hr.2
  exact hm (i + m) (by omega) (C116_final (run_asteps h i) (h.on i) (run_on h (Nat.le_add_right i m)) hs hr).1

/-- C116: what `C116_fair_partial` asks for never is impossible. From every state in which the program runs and the thread of a torrent with metadata is not stuck
there is such a run. -/
theorem C116_runs {w : World} {Q : Info → Prop} {fs : FS} {n : Nat} {A : App} (hA : ASteps w Q (App.init fs n) A) (hl : A.proc.log ≠ none) {k : Nat}
    (hf : A.Free k) {s : Slot} {info : Info} (hk : A.proc.slots[k]? = some s) (hi : s.sys.torrent.info = some info) :
    ∃ run, Run w Q fs n run ∧ run 0 = A ∧ Fair run k ∧ Prompt run ∧ (∀ i, (run i).Free k) ∧ LookupsEnd run k ∧
      ∀ i t, (run i).proc.slots[k]? = some t → downloadsFailed t.sys = downloadsFailed s.sys := by
  obtain ⟨T, slots, s1, q1, -, q2⟩ := to_quiet (w := w) (ainv_steps hA (ainv_init fs n)) hl (holds_steps hA (fun x hx => by cases hx))
  obtain ⟨y, l, y1, -, fs', y2⟩ := q2 k s hk
  have hiy : y.sys.torrent.info = some info := by rw [y2]; exact hi
  have hfy : downloadsFailed y.sys = downloadsFailed s.sys := by
    rw [y2]
    exact failed_told ..
  have hA1 := hA.trans s1.steps
  obtain ⟨T', e1, e2, e3, e4, e5⟩ := end_all (ainv_steps hA1 (ainv_init fs n)).trackers q1
  have s2 := track_steps (w := w) (Q := Q) (A := { A with proc := { A.proc with slots }, trackers := T, delivered := T.found.length }) hl (holds_steps hA1 (fun x hx => by cases hx)) e1 e2
  have hA2 := hA1.trans s2.steps
  obtain ⟨c, hkn⟩ := among_known (C84_among hA2 (List.mem_of_getElem? y1)) hiy
  obtain ⟨P', t, h1, h2, h3, h4, h5, h6, h7, h8⟩ := to_rest (fs := fs) (n := n) (c := c) (info := info) (k := k) false (fun e => by cases e) _ hA2 hl hf y1 hkn rfl
  obtain ⟨run, m, r1, r2, r3⟩ := forever hA hl ((s1.trans s2).trans h1)
  have hend : ∀ j, m ≤ j → (run j).proc.slots[k]? = some t := fun j hj => by rw [(r3 j hj).1]; exact h3
  refine ⟨run, r1, r2, rest_fair r1 (m := m) fun j hj => ⟨t, hend j hj, h4⟩, rest_prompt r1 (a := m) fun j hj => ?_, fun i => ?_, fun i a x r hx hr _ => ?_,
    fun i x hx => ?_⟩
  · rw [(r3 j hj).2.2.2.1, (r3 j hj).2.2.2.2]
    refine ⟨e4, ?_⟩
    show T.found.length = T'.found.length
    rw [e3]
  · obtain ⟨th, e1, e2⟩ := hf
    refine run_free r1 ⟨th, by rw [r2]; exact e1⟩ (Nat.le_add_right i m) ⟨th, ?_, ?_⟩
    · rw [(r3 _ (by omega)).2.1]
      exact e1
    · rw [(r3 _ (by omega)).2.2.1]
      exact e2
  · obtain ⟨x', g1, -⟩ := tlater_steps (run_tracked r1 (Nat.le_add_right i m)).1 hx
    refine ⟨i + m, x', by omega, g1, ?_⟩
    rw [(r3 (i + m) (by omega)).2.2.2.1] at g1
    rw [e5 a x' g1]
    exact List.not_mem_nil
  · have l1 := run_later r1 (Nat.zero_le i) (by rw [r2]; exact hk) hx
    have l2 := run_later r1 (Nat.le_add_right i m) hx (hend (i + m) (by omega))
    exact (l1.between l2).1 (h6.trans hfy)

/-- A lookup that never ends keeps a torrent, whatever else happens. -/
theorem kept_run {w : World} {Q : Info → Prop} {fs : FS} {n : Nat} {A : App} (hA : ASteps w Q (App.init fs n) A) (hl : A.proc.log ≠ none) {k : Nat}
    (hf : A.Free k) {s : Slot} {info : Info} (hk : A.proc.slots[k]? = some s) (hi : s.sys.torrent.info = some info) {a : Nat} {x : TrackerSys} {r : Registered}
    (ha : A.trackers.trackers[a]? = some x) (hu : x.up = true) (hr : r ∈ A.trackers.mail ++ (x.mail ++ x.pending)) (hrk : r.torrent = k) :
    ∃ run, Run w Q fs n run ∧ run 0 = A ∧ Fair run k ∧ Prompt run ∧ (∀ i, (run i).Free k) ∧
      (∀ i t, (run i).proc.slots[k]? = some t → downloadsFailed t.sys = downloadsFailed s.sys) ∧ ∀ i, ¬ (run i).Released k := by
  obtain ⟨T, slots, s1, q1, q0, q2⟩ := to_quiet (w := w) (ainv_steps hA (ainv_init fs n)) hl (holds_steps hA (fun x hx => by cases hx))
  obtain ⟨y, l, y1, -, fs', y2⟩ := q2 k s hk
  have hiy : y.sys.torrent.info = some info := by rw [y2]; exact hi
  have hfy : downloadsFailed y.sys = downloadsFailed s.sys := by
    rw [y2]
    exact failed_told ..
  have hA1 := hA.trans s1.steps
  obtain ⟨c, hkn⟩ := among_known (C84_among hA1 (List.mem_of_getElem? y1)) hiy
  obtain ⟨P', t, h1, h2, h3, h4, h5, h6, h7, h8⟩ := to_rest (fs := fs) (n := n) (c := c) (info := info) (k := k) false (fun e => by cases e) _ hA1 hl hf y1 hkn rfl
  obtain ⟨run, m, r1, r2, r3⟩ := forever hA hl (s1.trans h1)
  have hend : ∀ j, m ≤ j → (run j).proc.slots[k]? = some t := fun j hj => by rw [(r3 j hj).1]; exact h3
  refine ⟨run, r1, r2, rest_fair r1 (m := m) fun j hj => ⟨t, hend j hj, h4⟩, rest_prompt r1 (a := m) fun j hj => ?_, fun i => ?_, fun i x hx => ?_,
    never_released r1 (m := m) fun j hj => ?_⟩
  · rw [(r3 j hj).2.2.2.1, (r3 j hj).2.2.2.2]
    exact ⟨q1, rfl⟩
  · obtain ⟨th, e1, e2⟩ := hf
    refine run_free r1 ⟨th, by rw [r2]; exact e1⟩ (Nat.le_add_right i m) ⟨th, ?_, ?_⟩
    · rw [(r3 _ (by omega)).2.1]
      exact e1
    · rw [(r3 _ (by omega)).2.2.1]
      exact e2
  · have l1 := run_later r1 (Nat.zero_le i) (by rw [r2]; exact hk) hx
    have l2 := run_later r1 (Nat.le_add_right i m) hx (hend (i + m) (by omega))
    exact (l1.between l2).1 (h6.trans hfy)
  · rintro ⟨⟨z, hz, hor⟩, -⟩
    rw [hend j hj] at hz
    cases hz
    rcases hor with hd | ⟨hh, -⟩
    · obtain ⟨c', hk'⟩ := among_known (C84_among (run_asteps r1 j) (List.mem_of_getElem? (hend j hj))) h5
      rw [hk'.up] at hd
      cases hd
    · obtain ⟨x', g1, g2, g3⟩ := q0 a trivial x ha hu
      have hx := g3 r hr
      rw [q1.1, List.nil_append] at hx
      refine hh (.inl (.inr ⟨x', ?_, r, hx, hrk⟩))
      rw [(r3 j hj).2.2.2.1]
      exact List.mem_of_getElem? g1

/-- C116 as stated is false: whatever happened before, as long as the program runs, two trackers are left and a thread is not stuck, a torrent can be requested and
completed, with all of its files in place, and then there is a fair run in which nothing is left lying about and no download ever fails, in which the torrent keeps its threads
for ever: one tracker, which may be any that is silent (all of them are asked over UDP), never answers. -/
theorem C116_refuted {w : World} {Q : Info → Prop} {fs : FS} {n : Nat} {A : App} {info : Info} {md d body infoHash : Bytes} {thread : Nat}
    (hrun : ASteps w Q (App.init fs n) A) (hQ : Q info) (hsha : ∀ b, (w.sha b).length = 20) (hlog : A.proc.log ≠ none)
    (hup : ∃ (a b : Nat) (x y : TrackerSys), a ≠ b ∧ A.trackers.trackers[a]? = some x ∧ x.up = true ∧ A.trackers.trackers[b]? = some y ∧ y.up = true)
    (hb : thread < A.threads) (hf : thread ∉ A.stuck)
    (ha : addMagnet w.build body = (.ok, some infoHash)) (hlen : infoHash.length = 20) (hnc : NotCached A.proc.fs w.cwd infoHash)
    (hmd : IsBencode (infoDict info) md) (hfits : InfoFits info) (hne : InfoNonempty info) (hmdl : md.length < 2 ^ 64)
    (hd : Describes w.sha info d) (hfit : Fits info d) (hpos : 0 < d.length) (hlay : Placeable w.cwd A.proc.fs (listedFiles info) d info.pieceLength)
    (hdl : ∀ f ∈ listedFiles info, f.path.head? ≠ some b!"downloads") :
    ∃ run, OnSteps w Q A (run 0) ∧ Run w Q fs n run ∧ Fair run A.proc.slots.length ∧ Prompt run ∧ (∀ i, (run i).Free A.proc.slots.length) ∧
      FilesOver A.proc.fs (run 0).proc.fs w.cwd (listedFiles info) d ∧
      (∀ i t, (run i).proc.slots[A.proc.slots.length]? = some t → ∀ j, j < pieceCount d.length info.pieceLength → j ∈ t.sys.written.map Ready.idx) ∧
      ∀ i, ¬ (run i).Released A.proc.slots.length := by
  obtain ⟨a, b, x, y, hab, hax, hxu, hby, hyu⟩ := hup
  obtain ⟨A', s, h1, h2, h3, h4, h5, h6, h7, h8, h9, h10, h11, -, h12, h13, -, h14, j, h15⟩ := can_request' (ainv_steps hrun (ainv_init fs n))
    (holds_steps hrun (fun x hx => by cases hx)) hQ hsha hlog ⟨x, List.mem_of_getElem? hax, hxu⟩ hb hf ha (.inl ⟨hnc, metadata_serves w.build hmd hfits hne hmdl hlen []⟩) hd hfit hpos hlay hdl
  have hA' := hrun.trans h1.steps
  have hfree : A'.Free A.proc.slots.length := by
    refine ⟨thread, ?_, by rw [h13]; exact hf⟩
    have := (ainv_steps hrun (ainv_init fs n)).home
    rw [h14, List.getElem?_append_right (by omega), this, Nat.sub_self]
    rfl
  have hheld : ∃ (m : Nat) (t : TrackerSys), A'.trackers.trackers[m]? = some t ∧ t.up = true ∧ (⟨infoHash, A.proc.slots.length⟩ : Registered) ∈ A'.trackers.mail ++ (t.mail ++ t.pending) := by
    by_cases e : a = j
    · obtain ⟨t, e1⟩ := h15 b (fun e' => hab (e.trans e'.symm)) y hby hyu
      exact ⟨b, t, e1⟩
    · obtain ⟨t, e1⟩ := h15 a e x hax hxu
      exact ⟨a, t, e1⟩
  obtain ⟨m, t, e1, e2, e3⟩ := hheld
  obtain ⟨run, r1, r2, r3, r4, r5, r6, r7⟩ := kept_run hA' (by rw [h2]; exact hlog) hfree h3 h5 e1 e2 e3 rfl
  refine ⟨run, by rw [r2]; exact h1, r1, r3, r4, r5, by rw [r2]; exact h11, fun i z hz i' hi' => ?_, r7⟩
  obtain ⟨c, hc, -⟩ := (run_later r1 (Nat.zero_le i) (by rw [r2]; exact h3) hz).up
  rw [hc, List.map_append]
  exact List.mem_append_left _ (h10 i' hi')

/-- C116: from an empty disk, in every world, a torrent of three bytes can be requested and completed, and keep its threads for ever. -/
example (w : World) (hsha : ∀ b, (w.sha b).length = 20) : ∃ run, Run w (fun _ => True) (fun _ => none) 1 run ∧ Fair run 0 ∧ Prompt run ∧
    readFile (run 0).proc.fs (w.cwd ++ [b!"a"]) = some [1, 2, 3] ∧ ∀ i, ¬ (run i).Released 0 := by
  obtain ⟨fs', h1, h2, h3⟩ := started w (fun _ => True) (fs := fun _ => none) 1 (by simp)
  have hascii : InfoAscii (threeBytes w.sha) := ⟨ascii_of_lit rfl, by intro fs h; cases h⟩
  have ha : fs' (w.cwd ++ [b!"a"]) = none := h3 _ (other_name (by decide) [])
  have hlay : Layout w.cwd fs' (listedFiles (threeBytes w.sha)) [1, 2, 3] 2 :=
    small_layout w.sha 1 2 3 ((threeBytes_layout_empty w).plain _ (List.mem_singleton.mpr rfl)) (by show fs' (w.cwd ++ [b!"a"]) ≠ _; rw [ha]; simp) (fun c hc => absurd (ha.symm.trans hc) (by simp))
  obtain ⟨run, g1, g2, g3, g4, -, g5, -, g6⟩ := C116_refuted (md := (threeBytes w.sha).encode) (thread := 0) h1 trivial hsha (by simp)
    ⟨0, 1, _, _, by decide, List.getElem?_eq_getElem (by show 0 < Trackers.init.trackers.length; decide +kernel), by show Trackers.init.trackers[0].up = true; decide +kernel,
      List.getElem?_eq_getElem (by show 1 < Trackers.init.trackers.length; decide +kernel), by show Trackers.init.trackers[1].up = true; decide +kernel⟩
    (by show 0 < 1; decide) (by simp) (add1 w.build) (by decide) ⟨.inr (h3 _ (other_name (by decide) [])), h3 _ (other_name (by decide) _)⟩
    (isBencode_info _ hascii) ⟨by show 1 < 2 ^ 64; decide, by simp [threeBytes, hsha], by show 2 < 2 ^ 64; decide, by intro n h; cases h; decide, by intro fs h; cases h⟩
    ⟨by show b!"a" ≠ [] ∧ validUtf8 b!"a" = true; decide +kernel, by
      intro h
      have := congrArg List.length h
      simp [threeBytes, hsha] at this, by intro fs h; cases h⟩
    (by rw [threeBytes_encode hsha]; simp [hsha])
    (threeBytes_describes hsha) ⟨by decide, by show pieceCount 3 2 ≤ 2 ^ 32; decide, by show 2 * pieceCount 3 2 < 2 ^ 64; decide⟩ (by decide)
    hlay.placeable
    (by intro f hf; rw [List.mem_singleton.mp hf]; show some b!"a" ≠ some b!"downloads"; decide)
  refine ⟨run, g2, g3, g4, ?_, g6⟩
  exact over_layout hlay g5 0 _ rfl (by show 0 < 3; decide)

/-- C116: in every world a torrent can have its metadata and start, and give back its threads when it is done. -/
example (w : World) (hsha : ∀ b, (w.sha b).length = 20) :
    ∃ run, Run w (Beside (threeBytes w.sha)) (cachedFs w.cwd (List.replicate 20 17) (threeBytes w.sha)) 1 run ∧ (∃ s, (run 0).proc.slots[0]? = some s ∧ Starts s.sys) ∧
      ∃ i, ∀ j, i ≤ j → (run j).Released 0 := by
  obtain ⟨A, s, h1, h2, h3, h4, h5, h6, -⟩ := about_to_start w hsha
  obtain ⟨run, r1, r2, r3, r4, r5, r6, r7⟩ := C116_runs h1 h2 h3 h4 h5
  exact ⟨run, r1, ⟨s, by rw [r2]; exact h4, h6⟩,
    C116_fair_partial r1 r4 r3 r5 (by rw [r2]; exact h4) r6 (fun i t ht => Nat.le_of_eq (r7 i t ht))⟩

/-! ### Torrents without peers -/

/-- C116: a torrent that is requested while sixteen torrents wait to be passed on to the trackers may be dropped: then its threads end at once, though the client is
told that all is well. By `C116_final` nothing ever comes of it. -/
theorem C116_dropped {w : World} {Q : Info → Prop} {fs : FS} {n : Nat} {A : App} {body infoHash : Bytes} {thread : Nat} (hrun : ASteps w Q (App.init fs n) A)
    (hlog : A.proc.log ≠ none) (hb : thread < A.threads) (hf : thread ∉ A.stuck) (ha : addMagnet w.build body = (.ok, some infoHash))
    (hfull : 16 ≤ A.trackers.mail.length) :
    ∃ A', AStep w A A' ∧ A'.proc.slots[A.proc.slots.length]? = some ⟨Sys.init infoHash A.proc.fs, none⟩ ∧ A'.Released A.proc.slots.length := by
  have hinv := ainv_steps hrun (ainv_init fs n)
  have st := AStep.add (w := w) A hlog body infoHash ha thread hb hf _ (.addFull A.trackers ⟨infoHash, A.proc.slots.length⟩ hfull) rfl
  have hget : (A.proc.slots ++ [(⟨Sys.init infoHash A.proc.fs, none⟩ : Slot)])[A.proc.slots.length]? = some ⟨Sys.init infoHash A.proc.fs, none⟩ := by
    rw [List.getElem?_append_right (Nat.le_refl _), Nat.sub_self]
    rfl
  have hfr : ¬ (Sys.init infoHash A.proc.fs).Holds := fresh_holds (fresh_init _ _)
  have hadd : ∀ r ∈ A.trackers.added, r.torrent ≠ A.proc.slots.length := by
    intro r hr e
    obtain ⟨k, hk⟩ := List.getElem?_of_mem hr
    have := hinv.added k
    rw [hk] at this
    cases hs : A.proc.slots[k]? with
    | none => rw [hs] at this; cases this
    | some s =>
      rw [hs] at this
      cases this
      have := (List.getElem?_eq_some_iff.mp hs).1
      have e : k = A.proc.slots.length := e
      omega
  have hti := tinv_steps hinv.trackers tinv_init
  have hno : ¬ A.trackers.Holds A.proc.slots.length := by
    rintro (⟨r, hr, e⟩ | ⟨t, ht, r, hr, e⟩)
    · exact hadd r (hti.sub.subset (List.mem_append_right _ hr)) e
    · refine hadd r ?_ e
      have hte := hti.each t ht
      rcases List.mem_append.mp hr with hr | hr
      · exact hti.sub.subset (List.mem_append_left _ (hte.sub.subset (List.mem_append_right _ hr)))
      · obtain ⟨k, hk⟩ := List.getElem?_of_mem ht
        obtain ⟨c1, c2, -, -⟩ := C73_at_most_once hinv.trackers hk
        refine c1.subset (List.count_pos_iff.mp ?_)
        have := c2 r
        have := List.count_pos_iff.mpr hr
        omega
  refine ⟨_, st, hget, ⟨_, hget, .inr ⟨?_, rfl, fun p hp => ?_⟩⟩, _, hget, hfr⟩
  · rintro (h | ⟨x, hx, h⟩)
    · exact hno h
    · rw [show _ = some _ from hget] at hx
      cases hx
      exact hfr h
  · have hp : (A.proc.slots.length, p) ∈ A.trackers.found.drop A.delivered := hp
    obtain ⟨r, h1, h2, -⟩ := C73_messages_are_peers hinv.trackers _ (List.mem_of_mem_drop hp)
    exact hadd r h1 h2.symm

/-- The state after `N` more requests for the same torrent. -/
def requested (A : App) (infoHash : Bytes) (thread N : Nat) : App :=
  { A with
    proc := { A.proc with slots := A.proc.slots ++ List.replicate N ⟨Sys.init infoHash A.proc.fs, none⟩ }
    trackers := { A.trackers with
      mail := A.trackers.mail ++ (List.range N).map fun j => ⟨infoHash, A.proc.slots.length + j⟩
      added := A.trackers.added ++ (List.range N).map fun j => ⟨infoHash, A.proc.slots.length + j⟩ }
    home := A.home ++ List.replicate N thread }

theorem requests {w : World} {Q : Info → Prop} {A : App} {body infoHash : Bytes} {thread : Nat} (hlog : A.proc.log ≠ none)
    (hQ : ∀ x ∈ A.proc.slots, ∀ i, x.sys.torrent.info = some i → Q i) (hb : thread < A.threads) (hf : thread ∉ A.stuck)
    (ha : addMagnet w.build body = (.ok, some infoHash)) (N : Nat) : OnSteps w Q A (requested A infoHash thread N) := by
  induction N with
  | zero =>
    have : requested A infoHash thread 0 = A := by simp [requested]
    rw [this]
    exact .refl _
  | succ N ih =>
    have st := AStep.add (w := w) (requested A infoHash thread N) hlog body infoHash ha thread hb hf _
      (.add _ ⟨infoHash, (requested A infoHash thread N).proc.slots.length⟩) rfl
    have e : requested A infoHash thread (N + 1) = { requested A infoHash thread N with
        proc := { (requested A infoHash thread N).proc with
          slots := (requested A infoHash thread N).proc.slots ++ [⟨Sys.init infoHash (requested A infoHash thread N).proc.fs, none⟩] }
        trackers := { (requested A infoHash thread N).trackers with
          mail := (requested A infoHash thread N).trackers.mail ++ [⟨infoHash, (requested A infoHash thread N).proc.slots.length⟩]
          added := (requested A infoHash thread N).trackers.added ++ [⟨infoHash, (requested A infoHash thread N).proc.slots.length⟩] }
        home := (requested A infoHash thread N).home ++ [thread] } := by
      simp [requested, List.replicate_succ', List.range_succ]
    refine .tail ih (e ▸ st) ?_ hlog
    intro s hs i hi
    rcases List.mem_append.mp hs with hs | hs
    · exact hQ s hs i hi
    · rw [(List.mem_replicate.mp hs).2] at hi
      cases hi

/-- C116: nothing bounds the threads that torrents keep: while the program runs, a thread is not stuck and a tracker is left that is silent from now on, as many torrents as
one likes can be requested, and none of them ever gives back any of its six threads, in a run in which nothing is left lying about. -/
theorem C116_piles_up {w : World} {Q : Info → Prop} {fs : FS} {n : Nat} {A : App} {body infoHash : Bytes} {thread : Nat} (hrun : ASteps w Q (App.init fs n) A)
    (hlog : A.proc.log ≠ none) (hup : ∃ x ∈ A.trackers.trackers, x.up = true) (hb : thread < A.threads) (hf : thread ∉ A.stuck)
    (ha : addMagnet w.build body = (.ok, some infoHash)) (N : Nat) :
    ∃ run, OnSteps w Q A (run 0) ∧ Run w Q fs n run ∧ Prompt run ∧ ∀ j, j < N → Fair run (A.proc.slots.length + j) ∧
      ∀ i, ¬ (run i).Released (A.proc.slots.length + j) ∧ ∃ s, (run i).proc.slots[A.proc.slots.length + j]? = some s ∧ s.sys.ownThreads = 6 := by
  obtain ⟨x, hx, hxu⟩ := hup
  obtain ⟨m, hm⟩ := List.getElem?_of_mem hx
  obtain ⟨T, slots, s1, q1, q0, q2⟩ := to_quiet (w := w) (ainv_steps hrun (ainv_init fs n)) hlog (holds_steps hrun (fun x hx => by cases hx))
  obtain ⟨x1, hm1, hxu1, -⟩ := q0 m trivial x hm hxu
  have hA1 := hrun.trans s1.steps
  have hlen : slots.length = A.proc.slots.length := by
    have a := (ainv_steps hA1 (ainv_init fs n)).home
    have b := (ainv_steps hrun (ainv_init fs n)).home
    exact a.symm.trans b
  have s2 := requests (Q := Q) (A := { A with proc := { A.proc with slots }, trackers := T, delivered := T.found.length }) hlog
    (holds_steps hA1 (fun x hx => by cases hx)) hb hf ha N
  have hA2 := hA1.trans s2.steps
  generalize hB : requested _ infoHash thread N = B at s2
  have hBs : B.proc.slots = slots ++ List.replicate N ⟨Sys.init infoHash A.proc.fs, none⟩ := by rw [← hB]; rfl
  have hBl : B.proc.log ≠ none := by rw [← hB]; exact hlog
  have hBd : B.delivered = B.trackers.found.length := by rw [← hB]; rfl
  have hBt : B.trackers.trackers = T.trackers := by rw [← hB]; rfl
  have hBm : B.trackers.mail = T.mail ++ (List.range N).map fun j => ⟨infoHash, slots.length + j⟩ := by rw [← hB]; rfl
  have hA2 := hA1.trans s2.steps
  obtain ⟨T', ⟨d1, d2, d3, d4⟩, d5⟩ := drain_all (ainv_steps hA2 (ainv_init fs n)).trackers
  have s3 := track_steps (w := w) (Q := Q) hBl (holds_steps hA2 (fun x hx => by cases hx)) d1 d2
  obtain ⟨x', g1, g2, g3⟩ := d4 m trivial x1 (by rw [hBt]; exact hm1) hxu1
  have hA3 := hA2.trans s3.steps
  obtain ⟨run, a, r1, r2, r3⟩ := forever hA3 hBl (.refl _)
  have hget : ∀ i j, j < N → (run (a + i)).proc.slots[A.proc.slots.length + j]? = some ⟨Sys.init infoHash A.proc.fs, none⟩ := by
    intro i j hj
    rw [(r3 (a + i) (by omega)).1]
    show B.proc.slots[_]? = _
    rw [hBs, List.getElem?_append_right (by omega), List.getElem?_replicate, if_pos (by omega)]
  refine ⟨fun i => run (a + i), ?_, Run.shift r1 a, rest_prompt (Run.shift r1 a) (a := 0) fun j _ => ?_, fun j hj => ⟨?_, fun i => ⟨?_, _, hget i j hj, rfl⟩⟩⟩
  · have := run_on r1 (Nat.zero_le (a + 0))
    rw [r2] at this
    exact ((s1.trans s2).trans s3).trans this
  · rw [(r3 (a + j) (by omega)).2.2.2.1, (r3 (a + j) (by omega)).2.2.2.2]
    exact ⟨d5, hBd.trans (congrArg List.length d3.symm)⟩
  · exact rest_fair (Run.shift r1 a) (m := 0) fun i _ => ⟨_, hget i j hj, rfl, rfl, rfl, fun _ => rfl⟩
  · rintro ⟨⟨z, hz, hor⟩, -⟩
    rw [hget i j hj] at hz
    cases hz
    rcases hor with hd | ⟨hh, -⟩
    · cases hd
    · have hx := g3 ⟨infoHash, A.proc.slots.length + j⟩ (List.mem_append_left _ (by
        rw [hBm, hlen]
        exact List.mem_append_right _ (List.mem_map.mpr ⟨j, List.mem_range.mpr hj, rfl⟩)))
      rw [d5.1, List.nil_append] at hx
      refine hh (.inl (.inr ⟨x', ?_, _, hx, rfl⟩))
      rw [(r3 (a + i) (by omega)).2.2.2.1]
      exact List.mem_of_getElem? g1

/-- C116: in every world a hundred torrents can be requested that keep six hundred threads. -/
example (w : World) : ∃ run, Run w (fun _ => True) (fun _ => none) 1 run ∧ Prompt run ∧ ∀ j, j < 100 → Fair run j ∧ ∀ i, ¬ (run i).Released j ∧
    ∃ s, (run i).proc.slots[j]? = some s ∧ s.sys.ownThreads = 6 := by
  obtain ⟨fs', h1, h2, h3⟩ := started w (fun _ => True) (fs := fun _ => none) 1 (by simp)
  obtain ⟨run, -, g1, g2, g3⟩ := C116_piles_up (thread := 0) h1 (by simp) init_up (by show 0 < 1; decide) (by simp) (add1 w.build) 100
  refine ⟨run, g1, g2, fun j hj => ?_⟩
  simpa using g3 j hj

/-- C116: in every world the seventeenth torrent can be dropped, and hears of no peer ever. -/
example (w : World) : ∃ A s, ASteps w (fun _ => True) (App.init (fun _ => none) 1) A ∧ A.proc.log ≠ none ∧ A.proc.slots[16]? = some s ∧ A.Released 16 ∧
    ∀ A', OnSteps w (fun _ => True) A A' → A'.Released 16 := by
  obtain ⟨fs', h1, h2, h3⟩ := started w (fun _ => True) (fs := fun _ => none) 1 (by simp)
  have s2 := requests (w := w) (Q := fun _ => True) (A := ⟨⟨[], fs', [], some 0, []⟩, Trackers.init, 1, 0, [], []⟩) (thread := 0) (by simp) (fun _ _ _ _ => trivial) (by show 0 < 1; decide) (by simp) (add1 w.build) 16
  have h4 := h1.trans s2.steps
  obtain ⟨A', st, g1, g2⟩ := C116_dropped (thread := 0) h4 (by simp [requested]) (by show 0 < 1; decide) (by simp [requested]) (add1 w.build)
    (by simp [requested])
  have g1 : A'.proc.slots[16]? = _ := g1
  have g2 : A'.Released 16 := g2
  have h5 := ASteps.tail h4 st (fun _ _ _ _ => trivial)
  have hl : A'.proc.log ≠ none := by
    intro e
    rw [(ainv_steps h5 (ainv_init _ _)).off e] at g1
    cases g1
  exact ⟨A', _, h5, hl, g1, g2, fun B hB => (C116_final h5 hl hB g1 g2).1⟩

/-- C116, exactly: of the six threads of a torrent those are gone that died: a worker for each piece that was lost, and the writer if it panicked. -/
theorem C116_threads {w : World} {s : Sys} (h : Among w s) : s.ownThreads = 6 - s.lost.length - (if s.writerUp then 0 else 1) ∧ s.lost.length ≤ 5 := by
  have hw : s.workers + s.lost.length = 5 := by
    rcases among_inv h with h | ⟨info, n, h⟩
    · rw [h.workers, h.lost]; rfl
    · exact h.workers
  unfold Sys.ownThreads
  split <;> exact ⟨by omega, by omega⟩

example : Sys.ownThreads { Sys.init [] (fun _ => none) with writerUp := false } = 5 := rfl

end RustBit
