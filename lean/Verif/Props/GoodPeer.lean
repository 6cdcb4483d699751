/-
C120: one good peer is enough.
-/
import Verif.Spec.GoodPeer
import Verif.Props.Peers
import Verif.Props.AnywhereAlive

namespace RustBit
open Spec

/-! ### The failures that are still possible -/

/-- What is left of `K` failures for each entry. -/
def slack (K : Nat) (peers : List TPeer) : Nat := (peers.map fun p => K - p.failed).sum

theorem slack_append (K : Nat) (a b : List TPeer) : slack K (a ++ b) = slack K a + slack K b := by simp [slack, List.sum_append]

theorem slack_le (K : Nat) (l : List TPeer) : slack K l ≤ K * l.length := by
  induction l with
  | nil => simp [slack]
  | cons p l ih =>
    simp only [slack, List.map_cons, List.sum_cons, List.length_cons, Nat.mul_succ] at ih ⊢
    omega

theorem slack_success (K : Nat) (l : List TPeer) (e : Bytes) : slack K (TPeer.updateSuccess l e) = slack K l := by
  induction l with
  | nil => rfl
  | cons p l ih =>
    simp only [slack, TPeer.updateSuccess, List.map_cons, List.sum_cons, List.map_map] at ih ⊢
    rw [ih]
    split <;> rfl

theorem slack_failed_le (K : Nat) (l : List TPeer) (e : Bytes) : slack K (TPeer.updateFailed l e) ≤ slack K l := by
  induction l with
  | nil => exact Nat.le_refl _
  | cons p l ih =>
    simp only [slack, TPeer.updateFailed, List.map_cons, List.sum_cons, List.map_map] at ih ⊢
    split
    · dsimp only
      omega
    · omega

theorem slack_failed {K : Nat} {l : List TPeer} {p : TPeer} (hp : p ∈ l) (hK : p.failed < K) : 1 + slack K (TPeer.updateFailed l p.endpoint) ≤ slack K l := by
  induction l with
  | nil => cases hp
  | cons q l ih =>
    have hle := slack_failed_le K l p.endpoint
    rcases List.mem_cons.mp hp with rfl | hp
    · simp only [slack, TPeer.updateFailed, List.map_cons, List.sum_cons, List.map_map, if_true] at hle ⊢
      omega
    · have := ih hp
      simp only [slack, TPeer.updateFailed, List.map_cons, List.sum_cons, List.map_map] at this ⊢
      split
      · dsimp only
        omega
      · omega

/-- As many failures as there are, and as can follow, are within bounds. -/
structure Within (K D : Nat) (s : Sys) : Prop where
  room : ∀ e n, failuresSince e s.handled = some n → n + (asked s).count e ≤ K
  sum : failedIn s.handled + slack K (peersAfter s.handled) ≤ K * (peersAfter s.handled).length + D

theorem failedIn_append (a b : List Mail) : failedIn (a ++ b) = failedIn a + failedIn b := List.countP_append

theorem reporters_append (a b : List Mail) : reporters (a ++ b) = reporters a ++ reporters b := List.filterMap_append

theorem asked_length (s : Sys) : (asked s).length = (flight s).length := by
  have : ∀ l : List Mail, (reporters l).length = (reports l).length := by
    intro l
    induction l with
    | nil => rfl
    | cons m l ih =>
      cases m <;> simp only [reporters, reports, List.filterMap_cons, List.length_cons] at ih ⊢ <;> omega
  simp only [asked, flight, List.length_append, List.length_map, this]

/-- Who is good is asked; no more than five pieces are in flight. -/
theorem good_eligible {log : List Mail} {e : Bytes} (hg : GoodPeer log) (he : Eligible log e) : ∃ n, failuresSince e log = some n ∧ n < 2 := by
  obtain ⟨n, h1, h2 | ⟨h2, -⟩⟩ := he
  · exact ⟨n, h1, h2⟩
  · obtain ⟨e', n', h3, h4⟩ := hg
    have := h2 e' n' h3
    omega

theorem within_step {w : World} {K D : Nat} {s t : Sys} (hr : Among w s) (h6 : 6 ≤ K) (h : Within K D s) (hst : Step w s t)
    (hg : asked t ≠ [] → GoodPeer t.handled) : Within K D t := by
  have hrt : Among w t := .step hr hst
  have h5 : (asked t).length ≤ 5 := by rw [asked_length]; exact (C41_at_most_five hrt).1
  have chosen : ∀ e n, failuresSince e t.handled = some n → n < 2 → n + (asked t).count e ≤ K := by
    intro e n _ hn
    have := (asked t).count_le_length (a := e)
    omega
  have still : t.handled = s.handled → (∀ e, (asked t).count e ≤ (asked s).count e) → Within K D t := by
    intro e1 e2
    refine ⟨fun e n hn => ?_, by rw [e1]; exact h.sum⟩
    rw [e1] at hn
    have := h.room e n hn
    have := e2 e
    omega
  have asked_more : ∀ {more : List Request} {r : Request}, t.queue = s.queue ++ more → r ∈ more → asked t ≠ [] := by
    intro more r e1 e2 e3
    simp only [asked, List.append_eq_nil_iff, List.map_eq_nil_iff] at e3
    rw [e1, List.append_eq_nil_iff] at e3
    rw [e3.1.1.2] at e2
    cases e2
  have named : ∀ p rest, s.mail = .found p :: rest → t.handled = s.handled ++ [.found p] → t.mail = rest → t.busy = s.busy → Within K D t := by
    intro p rest hm e1 e2 e3
    obtain ⟨more, hq, hmore⟩ := C104_requests hr hst e1
    refine ⟨fun x n hn => ?_, ?_⟩
    · by_cases hx : ∃ r ∈ more, r.endpoint = x
      · obtain ⟨r, hr', rfl⟩ := hx
        rcases hmore r hr' with ⟨_, _, e'⟩ | he
        · cases e'
        · obtain ⟨n', hn', h2⟩ := good_eligible (hg (asked_more hq hr')) he
          rw [hn] at hn'
          cases hn'
          exact chosen _ _ hn h2
      · have hmc : (more.map Request.endpoint).count x = 0 := by
          rw [List.count_eq_zero]
          intro hx'
          obtain ⟨r, h1, h2⟩ := List.mem_map.mp hx'
          exact hx ⟨r, h1, h2⟩
        by_cases h2 : n < 2
        · exact chosen x n hn h2
        · rw [e1, failuresSince_found] at hn
          split at hn
          · cases hn
            omega
          · have h1 := h.room x n hn
            simp only [asked, hm, reporters, List.filterMap_cons, List.count_append] at h1
            simp only [asked, hq, e2, e3, reporters, List.map_append, List.count_append, hmc]
            omega
    · have := h.sum
      rw [e1, peersAfter_found, slack_append, failedIn_append, List.length_append]
      simp only [show failedIn [Mail.found p] = 0 from rfl, show slack K [TPeer.new p.endpoint] = K from rfl, List.length_cons, List.length_nil,
        Nat.mul_add, Nat.mul_one]
      omega
  have h104 := fun m => C104_requests (m := m) hr hst
  cases hst with
  | announce bytes p hp =>
    refine still rfl fun e => ?_
    simp [asked, reporters]
  | take r queue hq hb =>
    refine still rfl fun e => ?_
    simp only [asked, hq, List.map_append, List.map_cons, List.map_nil, List.count_append, List.count_cons, List.count_nil]
    omega
  | finishOk pre post r hb =>
    refine still rfl fun e => ?_
    simp only [asked, hb, reporters, List.filterMap_append, List.filterMap_cons, List.filterMap_nil, List.map_append, List.map_cons, List.count_append,
      List.count_cons, List.count_nil]
    omega
  | finishErr pre post r hb =>
    refine still rfl fun e => ?_
    simp only [asked, hb, reporters, List.filterMap_append, List.filterMap_cons, List.filterMap_nil, List.map_append, List.map_cons, List.count_append,
      List.count_cons, List.count_nil]
    omega
  | finishPanic pre post r hb =>
    refine still rfl fun e => ?_
    simp only [asked, hb, List.map_append, List.map_cons, List.count_append, List.count_cons]
    omega
  | write => exact still rfl fun e => Nat.le_refl _
  | success e piece i rest hd hm =>
    have hq : (s.torrent.onSuccess e piece i).requests = [] ∨ ∃ r, (s.torrent.onSuccess e piece i).requests = [r] ∧ r.endpoint = e := by
      unfold Torrent.onSuccess
      split
      · exact .inl rfl
      · split
        · dsimp only
          split
          · exact .inl rfl
          · unfold Torrent.requestNext
            cases PiecePool.pop _ with
            | mk a b => cases a with
              | none => exact .inl rfl
              | some idx => exact .inr ⟨_, rfl, rfl⟩
        · exact .inl rfl
    have hle : ∀ x, (asked (s.after (.success e piece i) rest (s.torrent.onSuccess e piece i))).count x ≤ (asked s).count x := by
      intro x
      rcases hq with hq | ⟨r, hq, he⟩
      · simp only [asked, Sys.after, hq, hm, reporters, List.filterMap_cons, List.map_append, List.map_nil, List.count_append, List.count_cons, List.count_nil]
        omega
      · simp only [asked, Sys.after, hq, hm, he, reporters, List.filterMap_cons, List.map_append, List.map_cons, List.map_nil, List.count_append, List.count_cons,
          List.count_nil]
        omega
    refine ⟨fun x n hn => ?_, ?_⟩
    · rw [show (s.after (.success e piece i) rest (s.torrent.onSuccess e piece i)).handled = s.handled ++ [.success e piece i] from rfl,
        failuresSince_other _ _ _ (fun p => by simp)] at hn
      obtain ⟨n0, hn0, e0⟩ := Option.map_eq_some_iff.mp hn
      have h1 := h.room x n0 hn0
      have h2 := hle x
      simp only [failures, List.countP_cons, List.countP_nil] at e0
      simp at e0
      omega
    · have := h.sum
      simp only [Sys.after, peersAfter_success, slack_success, failedIn_append]
      simp only [TPeer.updateSuccess, List.length_map]
      simpa [failedIn] using this
  | failed e i rest hd hm shuffled hs =>
    obtain ⟨more, hq, hmore⟩ := h104 (.failed e i) rfl
    obtain ⟨n1, hn1⟩ := named_iff.mp ((heardOf_among hr).failed e i (by rw [hm]; exact List.mem_cons_self ..))
    have hroom := h.room e n1 hn1
    have hcount : 1 ≤ (asked s).count e := by
      simp only [asked, hm, reporters, List.filterMap_cons, List.count_append, List.count_cons]
      simp
      omega
    refine ⟨fun x n hn => ?_, ?_⟩
    · by_cases hx : ∃ r ∈ more, r.endpoint = x
      · obtain ⟨r, hr', rfl⟩ := hx
        rcases hmore r hr' with ⟨_, _, e'⟩ | he
        · cases e'
        · obtain ⟨n', hn', h2⟩ := good_eligible (hg (asked_more hq hr')) he
          rw [hn] at hn'
          cases hn'
          exact chosen _ _ hn h2
      · have hmc : (more.map Request.endpoint).count x = 0 := by
          rw [List.count_eq_zero]
          intro hx'
          obtain ⟨r, h1, h2⟩ := List.mem_map.mp hx'
          exact hx ⟨r, h1, h2⟩
        rw [show (s.after (.failed e i) rest (s.torrent.onFailed shuffled e i)).handled = s.handled ++ [.failed e i] from rfl,
          failuresSince_other _ _ _ (fun p => by simp)] at hn
        obtain ⟨n0, hn0, e0⟩ := Option.map_eq_some_iff.mp hn
        have h1 := h.room x n0 hn0
        simp only [asked, hm, reporters, List.filterMap_cons, List.count_append, List.count_cons] at h1
        simp only [asked, hq, List.map_append, List.count_append, hmc]
        simp only [Sys.after, reporters] at h1 ⊢
        simp only [failures, List.countP_cons, List.countP_nil] at e0
        omega
    · obtain ⟨p, p1, p2, p3⟩ := failuresSince_entry hn1
      have h1 := slack_failed (K := K) p1 (by omega)
      rw [p2] at h1
      have := h.sum
      simp only [Sys.after, peersAfter_failed, failedIn_append]
      simp only [show (TPeer.updateFailed (peersAfter s.handled) e).length = (peersAfter s.handled).length from List.length_map ..]
      simp only [show failedIn [Mail.failed e i] = 1 from rfl]
      omega
  | collect p rest hd hm hi tcp f peerId room collected fs hh hc =>
    exact named p rest hm rfl rfl rfl
  | found p rest hd hm info hi shuffles hn hs =>
    exact named p rest hm rfl rfl rfl

theorem within_init (infoHash : Bytes) (fs : FS) : Within 6 0 (Sys.init infoHash fs) := by
  refine ⟨fun e n hn => ?_, by simp [Sys.init, failedIn, slack, peersAfter]⟩
  simp [Sys.init, failuresSince] at hn

/-- Where one can start from. -/
theorem within_start {w : World} {s : Sys} (hr : Among w s) {F : Nat} (hF : ∀ e n, failuresSince e s.handled = some n → n ≤ F) :
    Within (F + 6) (failedIn s.handled) s := by
  refine ⟨fun e n hn => ?_, ?_⟩
  · have h5 : (asked s).length ≤ 5 := by rw [asked_length]; exact (C41_at_most_five hr).1
    have := (asked s).count_le_length (a := e)
    have := hF e n hn
    omega
  · have := slack_le (F + 6) (peersAfter s.handled)
    omega

theorem within_core {K D : Nat} {s t : Sys} (h : Within K D s) (h1 : t.handled = s.handled) (h2 : t.queue = s.queue) (h3 : t.busy = s.busy)
    (h4 : reporters t.mail = reporters s.mail) : Within K D t := by
  obtain ⟨a, b⟩ := h
  refine ⟨fun e n hn => ?_, by rw [h1]; exact b⟩
  rw [h1] at hn
  have := a e n hn
  rwa [asked, h2, h3, h4]

theorem within_move {w : World} {K D : Nat} {s s' : Slot} (hr : Among w s.sys) (h6 : 6 ≤ K) (h : Within K D s.sys) (hm : Move w s s')
    (hg : asked s'.sys ≠ [] → GoodPeer s'.sys.handled) : Within K D s'.sys := by
  cases hm with
  | still hp fs e => rw [e]; exact within_core h rfl rfl rfl rfl
  | act hp fs hst hw => exact within_step (s := { s.sys with fs }) (.disk hr fs) h6 (within_core h rfl rfl rfl rfl) hst hg
  | told hp fs p e => rw [e]; exact within_core h rfl rfl rfl (by simp [reporters])
  | begin ws hp e => rw [e]; exact h
  | part x xs hp e => rw [e]; exact within_core h rfl rfl rfl rfl
  | done r ready up hr e => rw [e]; exact within_core h rfl rfl rfl rfl

theorem within_run {w : World} {Q : Info → Prop} {fs : FS} {n : Nat} {run : Nat → App} (h : Run w Q fs n run) {k : Nat} {s : Slot}
    (hk : (run 0).proc.slots[k]? = some s) {K D : Nat} (h6 : 6 ≤ K) (h0 : Within K D s.sys)
    (hg : ∀ i t, (run i).proc.slots[k]? = some t → asked t.sys ≠ [] → GoodPeer t.sys.handled) :
    ∀ i t, (run i).proc.slots[k]? = some t → Within K D t.sys := by
  obtain ⟨f, f0, fk, fm⟩ := run_slots h hk
  intro i t ht
  have : ∀ i, Within K D (f i).sys := by
    intro i
    induction i with
    | zero => rw [f0]; exact h0
    | succ i ih => exact within_move (C84_among (run_asteps h i) (List.mem_of_getElem? (fk i))) h6 ih (fm i) (hg (i + 1) _ (fk (i + 1)))
  have e := fk i
  rw [ht] at e
  cases e
  exact this i

/-- How many downloads have failed. -/
theorem failed_within {w : World} {K D : Nat} {s : Sys} (hr : Among w s) (h : Within K D s) :
    downloadsFailed s ≤ K * s.torrent.peers.length + D + 5 := by
  have h5 := (C41_at_most_five hr).1
  have h1 : downloadsFailed s = failedIn s.handled + failedIn s.mail := failedIn_append _ _
  have h2 : failedIn s.mail ≤ (reports s.mail).length := by
    induction s.mail with
    | nil => exact Nat.le_refl _
    | cons m l ih => cases m <;> simp only [failedIn, reports, List.countP_cons, List.filterMap_cons, List.length_cons] at ih ⊢ <;> simp <;> omega
  have h3 : (reports s.mail).length ≤ (flight s).length := by simp [flight]; omega
  have := h.sum
  rw [C47_counters hr]
  omega

/-! ### C120 -/

/-- C120: as long as there is a peer that has not failed twice whenever somebody is asked, no peer fails more than six times more than any peer has at first, and
altogether downloads fail at most so often for each peer. -/
theorem C120_failures {w : World} {Q : Info → Prop} {fs : FS} {n : Nat} {run : Nat → App} (h : Run w Q fs n run) {k : Nat} {s : Slot}
    (hk : (run 0).proc.slots[k]? = some s) {F : Nat} (hF : ∀ e m, failuresSince e s.sys.handled = some m → m ≤ F)
    (hg : ∀ i t, (run i).proc.slots[k]? = some t → asked t.sys ≠ [] → GoodPeer t.sys.handled) {i : Nat} {t : Slot} (ht : (run i).proc.slots[k]? = some t) :
    (∀ e m, failuresSince e t.sys.handled = some m → m ≤ F + 6) ∧
    downloadsFailed t.sys ≤ failedIn s.sys.handled + (F + 6) * t.sys.torrent.peers.length + 5 ∧ t.sys.torrent.peers.length ≤ 18 * 663 := by
  have hw := within_run h hk (by omega) (within_start (C84_among (run_asteps h 0) (List.mem_of_getElem? hk)) hF) hg i t ht
  have ha := run_asteps h i
  have hm := List.mem_of_getElem? ht
  have h1 := failed_within (C84_among ha hm) hw
  have h2 := C109_peers ha hm
  exact ⟨fun e m he => Nat.le_trans (Nat.le_add_right _ _) (hw.room e m he), by omega, by omega⟩

/-- Before the start nobody has been asked, so nobody has failed. -/
theorem unstarted_failures {w : World} {s : Sys} (h : Among w s) (hi : s.torrent.initiated = false) : failedIn s.handled = 0 ∧ asked s = [] := by
  have hflight : ∀ {s : Sys}, Among w s → s.torrent.initiated = false → flight s = [] := by
    intro s h hi
    rcases among_inv h with h | ⟨info, n, hk⟩
    · exact (C40_before ‹_› h.info).2.1
    · exact (hk.idle hi).1
  have hasked : ∀ {s : Sys}, Among w s → s.torrent.initiated = false → asked s = [] := by
    intro s h hi
    have := asked_length s
    rw [hflight h hi] at this
    exact List.length_eq_zero_iff.mp this
  refine ⟨?_, hasked h hi⟩
  induction h with
  | init => rfl
  | disk _ _ ih => exact ih hi
  | wrote _ _ _ _ _ _ _ ih => exact ih hi
  | @step s t hs hst ih =>
    have hsi : s.torrent.initiated = false := by
      cases e : s.torrent.initiated with
      | false => rfl
      | true => rw [initiated_step e hst] at hi; cases hi
    have h0 := ih hsi
    have ha := hasked hs hsi
    cases hst with
    | announce => exact h0
    | take => exact h0
    | finishOk => exact h0
    | finishErr => exact h0
    | finishPanic => exact h0
    | write => exact h0
    | success e piece i rest hd hm => simp only [Sys.after, failedIn_append, h0]; rfl
    | failed e i rest hd hm => simp [asked, hm, reporters] at ha
    | collect p rest hd hm => simp only [Sys.after, failedIn_append, h0]; rfl
    | found p rest hd hm => simp only [Sys.after, failedIn_append, h0]; rfl

theorem failures_le_failedIn (e : Bytes) (log : List Mail) : failures e log ≤ failedIn log := by
  unfold failures failedIn
  refine List.countP_mono_left fun m _ h => ?_
  cases m <;> first | rfl | cases h

/-- C120: from before the start on, no peer fails more than six times after it was named last, and altogether no more than six downloads fail for each peer,
five aside. -/
theorem C120_six {w : World} {Q : Info → Prop} {fs : FS} {n : Nat} {run : Nat → App} (h : Run w Q fs n run) {k : Nat} {s : Slot}
    (hk : (run 0).proc.slots[k]? = some s) (hi : s.sys.torrent.initiated = false)
    (hg : ∀ i t, (run i).proc.slots[k]? = some t → asked t.sys ≠ [] → GoodPeer t.sys.handled) {i : Nat} {t : Slot} (ht : (run i).proc.slots[k]? = some t) :
    (∀ e m, failuresSince e t.sys.handled = some m → m ≤ 6) ∧ downloadsFailed t.sys ≤ 6 * t.sys.torrent.peers.length + 5 := by
  have h0 := (unstarted_failures (C84_among (run_asteps h 0) (List.mem_of_getElem? hk)) hi).1
  obtain ⟨h1, h2, -⟩ := C120_failures (F := 0) h hk (fun e m he => by
    have := failuresSince_le he
    have := failures_le_failedIn e s.sys.handled
    omega) hg ht
  exact ⟨fun e m he => by have := h1 e m he; omega, by omega⟩

theorem failures_bounded (log : List Mail) (e : Bytes) (m : Nat) (h : failuresSince e log = some m) : m ≤ failedIn log :=
  Nat.le_trans (failuresSince_le h) (failures_le_failedIn e log)

/-- C120: so only so many downloads fail in the whole run. -/
theorem C120_finitely {w : World} {Q : Info → Prop} {fs : FS} {n : Nat} {run : Nat → App} (h : Run w Q fs n run) {k : Nat}
    (hg : ∀ i t, (run i).proc.slots[k]? = some t → asked t.sys ≠ [] → GoodPeer t.sys.handled) :
    ∃ B, ∀ i t, (run i).proc.slots[k]? = some t → downloadsFailed t.sys ≤ B := by
  have early : ∀ m, ∃ B, ∀ i, i < m → ∀ t, (run i).proc.slots[k]? = some t → downloadsFailed t.sys ≤ B := by
    intro m
    induction m with
    | zero => exact ⟨0, fun i hi => by omega⟩
    | succ m ih =>
      obtain ⟨B, hB⟩ := ih
      cases hm : (run m).proc.slots[k]? with
      | none =>
        refine ⟨B, fun i hi t ht => ?_⟩
        by_cases e : i = m
        · rw [e, hm] at ht; cases ht
        · exact hB i (by omega) t ht
      | some s =>
        refine ⟨B + downloadsFailed s.sys, fun i hi t ht => ?_⟩
        by_cases e : i = m
        · rw [e, hm] at ht; cases ht; omega
        · have := hB i (by omega) t ht; omega
  by_cases hex : ∃ m s, (run m).proc.slots[k]? = some s
  · obtain ⟨m, s, hm⟩ := hex
    obtain ⟨B, hB⟩ := early m
    refine ⟨B + (failedIn s.sys.handled + (failedIn s.sys.handled + 6) * (18 * 663) + 5), fun i t ht => ?_⟩
    by_cases hi : i < m
    · have := hB i hi t ht; omega
    · obtain ⟨j, rfl⟩ := Nat.exists_eq_add_of_le (Nat.le_of_not_lt hi)
      obtain ⟨-, h2, h3⟩ := C120_failures (F := failedIn s.sys.handled) (Run.shift h m) (k := k) (s := s) hm (failures_bounded s.sys.handled) (fun i t => hg (m + i) t) (i := j) ht
      have := Nat.mul_le_mul_left (failedIn s.sys.handled + 6) h3
      omega
  · exact ⟨0, fun i t ht => absurd ⟨i, t, ht⟩ hex⟩

/-- C120: with such a peer, in every fair run, a torrent comes to rest. -/
theorem C120_rest {w : World} {Q : Info → Prop} {fs : FS} {n : Nat} {run : Nat → App} (h : Run w Q fs n run) {k : Nat} (hf : Fair run k)
    (hfree : ∀ i, (run i).Free k) {s : Slot} {info : Info} (hk : (run 0).proc.slots[k]? = some s) (hi : s.sys.torrent.info = some info)
    (hg : ∀ i t, (run i).proc.slots[k]? = some t → asked t.sys ≠ [] → GoodPeer t.sys.handled) :
    ∃ i, ∀ j, i ≤ j → ∃ t, (run j).proc.slots[k]? = some t ∧ t.sys.mail = [] ∧ t.sys.queue = [] ∧ t.sys.busy = [] ∧
      (t.sys.writerUp = true → t.sys.ready = []) ∧
      (Starts s.sys → t.sys.lost.length < 5 → (handed t.sys ++ t.sys.lost).Perm (List.range (wrappedCount info))) := by
  obtain ⟨B, hB⟩ := C120_finitely h hg
  exact C111_rest h hf hfree hk hi hB

/-- C120: with such a peer, in every fair run in which no worker of the torrent dies and its thread does not get stuck, a torrent with metadata that starts
completes its files. Missing: dead workers (refuted below); a thread that gets stuck (C83); conditions of C81. -/
theorem C120_complete_partial {w : World} {info : Info} {d : Bytes} {fs : FS} {n : Nat} {run : Nat → App} (hd : Describes w.sha info d)
    (hlay : Placeable w.cwd fs (listedFiles info) d info.pieceLength) (hres : Unreserved info) (hpos : 0 < d.length)
    (h : Run w (Beside info) fs n run) {k : Nat} (hf : Fair run k) (hfree : ∀ i, (run i).Free k) {s : Slot}
    (hk : (run 0).proc.slots[k]? = some s) (hi : s.sys.torrent.info = some info) (hs : Starts s.sys)
    (hg : ∀ i t, (run i).proc.slots[k]? = some t → asked t.sys ≠ [] → GoodPeer t.sys.handled) (hL : ∀ i t, (run i).proc.slots[k]? = some t → t.sys.lost = []) :
    ∃ i, ∀ j, i ≤ j → (∃ r, (info, r) ∈ (run j).proc.taken ∧ Collision w.sha r.piece (piece d info.pieceLength r.idx)) ∨
      FilesOver fs (run j).proc.fs w.cwd (listedFiles info) d ∧
        (FilesRight (run j).proc.fs w.cwd (listedFiles info) d ↔ NoneLonger fs w.cwd (listedFiles info)) := by
  obtain ⟨B, hB⟩ := C120_finitely h hg
  exact C111_complete_partial hd hlay hres hpos h hf hfree hk hi hs hB hL

/-- C120 from the trackers on, for files with any paths: with such a peer, in every fair run in which no worker of the torrent dies and its thread does not get
stuck, a torrent for which trackers name more than ten peers, one of them after it has got its metadata, completes its files. Missing: as in C112. -/
theorem C120_named_anywhere_partial {w : World} {info : Info} {d : Bytes} {fs : FS} {n : Nat} {run : Nat → App} (hd : Describes w.sha info d) (h64 : d.length < 2 ^ 64)
    (hsp : Spared w.cwd info) (hpass : Passable w.cwd info) (hr : Receptive w.cwd fs (listedFiles info) info.pieceLength) (hpos : 0 < d.length)
    (h : Run w (fun i => Elsewhere w.cwd info i ∧ Unblocked w.cwd info i) fs n run) (hp : Prompt run) {k : Nat} (hf : Fair run k) (hfree : ∀ i, (run i).Free k) {i m : Nat}
    (hgets : GetsAt run k i m info)
    {i' : Nat} (h10 : 10 < (messagesTo k (run i').trackers.found).length) (hlast : m < (messagesTo k (run i').trackers.found).length)
    (hg : ∀ i t, (run i).proc.slots[k]? = some t → asked t.sys ≠ [] → GoodPeer t.sys.handled) (hL : ∀ i t, (run i).proc.slots[k]? = some t → t.sys.lost = []) :
    ∃ i, ∀ j, i ≤ j → (∃ r, (info, r) ∈ (run j).proc.taken ∧ Collision w.sha r.piece (piece d info.pieceLength r.idx)) ∨
      (FilesRight (run j).proc.fs [] (placedFiles w.cwd (listedFiles info)) d ↔ Agreeing w.cwd (listedFiles info) d ∧ SameLength w.cwd (listedFiles info) ∧
        NoneLonger fs [] (placedFiles w.cwd (listedFiles info))) := by
  obtain ⟨B, hB⟩ := C120_finitely h hg
  exact C112_named_anywhere_partial hd h64 hsp hpass hr hpos h hp hf hfree hgets h10 hlast hB hL

/-- A peer that is named, and does not fail twice, is one. -/
theorem C120_good {log : List Mail} {e : Bytes} (hn : NamedPeer e log) (h : failures e log < 2) : GoodPeer log := by
  obtain ⟨n, hn⟩ := named_iff.mp hn
  exact ⟨e, n, hn, by have := failuresSince_le hn; omega⟩

/-- Whoever is asked has been named. -/
theorem asked_named {w : World} {s : Sys} (h : Among w s) {e : Bytes} (he : e ∈ asked s) : NamedPeer e s.handled := by
  have hh := heardOf_among h
  simp only [asked, List.mem_append, List.mem_map] at he
  rcases he with (⟨r, hr, rfl⟩ | ⟨r, hr, rfl⟩) | he
  · exact hh.requests r (List.mem_append_left _ hr)
  · exact hh.requests r (List.mem_append_right _ hr)
  · simp only [reporters, List.mem_filterMap] at he
    obtain ⟨m, hm, he⟩ := he
    cases m with
    | found p => cases he
    | success e' piece i => cases he; exact hh.success _ _ _ hm
    | failed e' i => cases he; exact hh.failed _ _ hm

/-- Who has not failed at all is good. -/
theorem good_of_none {w : World} {s : Sys} (h : Among w s) (hn : downloadsFailed s = 0) (ha : asked s ≠ []) : GoodPeer s.handled := by
  obtain ⟨e, he⟩ := List.exists_mem_of_ne_nil _ ha
  refine C120_good (asked_named h he) ?_
  have h1 : failedIn s.handled + failedIn s.mail = 0 := by rw [← failedIn_append]; exact hn
  have := failures_le_failedIn e s.handled
  omega

/-- C120 refuted: that a peer does not fail is not enough if workers die. In every world there is a fair run in which no download fails and all peers
are good, and nothing of a torrent of three bytes is ever got. -/
theorem C120_refuted (w : World) (hsha : ∀ b, (w.sha b).length = 20) :
    ∃ run s, Run w (Beside (threeBytes w.sha)) (cachedFs w.cwd (List.replicate 20 17) (threeBytes w.sha)) 1 run ∧
    Fair run 0 ∧ (∀ i, (run i).Free 0) ∧ (run 0).proc.slots[0]? = some s ∧ s.sys.torrent.info = some (threeBytes w.sha) ∧ Starts s.sys ∧ s.sys.lost = [] ∧
    (∀ i t, (run i).proc.slots[0]? = some t → asked t.sys ≠ [] → GoodPeer t.sys.handled) ∧ ∀ i t, (run i).proc.slots[0]? = some t → handed t.sys = [] := by
  obtain ⟨run, s, h1, h2, h3, h4, h5, h6, h7, h8, -⟩ := C111_refuted w hsha
  exact ⟨run, s, h1, h2, h3, h4, h5, h6, h7,
    fun i t ht => good_of_none (C84_among (run_asteps h1 i) (List.mem_of_getElem? ht)) (h8 i t ht).1, fun i t ht => (h8 i t ht).2⟩

/-! ### Non-vacuity -/

/-- C120_failures, C120_rest, C120_complete_partial: in every world there is such a run, and a torrent of three bytes is got in it. -/
example (w : World) (hsha : ∀ b, (w.sha b).length = 20) : ∃ run s, Run w (Beside (threeBytes w.sha)) (cachedFs w.cwd (List.replicate 20 17) (threeBytes w.sha)) 1 run ∧
    Fair run 0 ∧ (∀ i, (run i).Free 0) ∧ (run 0).proc.slots[0]? = some s ∧ s.sys.torrent.info = some (threeBytes w.sha) ∧ Starts s.sys ∧ handed s.sys = [] ∧
    (∀ i t, (run i).proc.slots[0]? = some t → asked t.sys ≠ [] → GoodPeer t.sys.handled) ∧ (∀ i t, (run i).proc.slots[0]? = some t → t.sys.lost = []) := by
  obtain ⟨A, s, h1, h2, h3, h4, h5, h6, h7, h8, h9, h10⟩ := about_to_start w hsha
  obtain ⟨run, r1, r2, r3, r4, r5⟩ := C111_served_runs hsha (threeBytes_describes hsha)
    ⟨by decide, by show pieceCount 3 2 ≤ 2 ^ 32; decide, by show 2 * pieceCount 3 2 < 2 ^ 64; decide⟩ h1 h2 h3 h4 h5
  exact ⟨run, s, r1, r3, r4, by rw [r2]; exact h4, h5, h6, h8,
    fun i t ht => good_of_none (C84_among (run_asteps r1 i) (List.mem_of_getElem? ht)) ((r5 i t ht).1.trans h10), fun i t ht => (r5 i t ht).2.trans h7⟩

/-- A peer that failed once is good; once it fails again it is not, unless it is named again. -/
example : GoodPeer [.found peer0, .failed peer0.endpoint 3] ∧ ¬ GoodPeer [.found peer0, .failed peer0.endpoint 3, .failed peer0.endpoint 4] ∧
    GoodPeer [.found peer0, .failed peer0.endpoint 3, .failed peer0.endpoint 4, .found peer0] := by
  refine ⟨⟨peer0.endpoint, 1, by decide +kernel, by decide⟩, ?_, ⟨peer0.endpoint, 0, by decide +kernel, by decide⟩⟩
  rintro ⟨e, n, h1, h2⟩
  simp only [failuresSince] at h1
  split at h1
  · rename_i he
    subst he
    rw [show failures peer0.endpoint [.failed peer0.endpoint 3, .failed peer0.endpoint 4] = 2 by decide +kernel] at h1
    cases h1
    omega
  · cases h1

end RustBit
