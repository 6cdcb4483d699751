/-
C120: without a good peer downloads may fail for ever.
-/
import Verif.Props.GoodPeer

namespace RustBit
open Spec

/-- What happens if every download fails: messages are handled before anything else, and downloads end before others begin. -/
def Fails (s t : Sys) : Prop :=
  (∃ m rest, s.mail = m :: rest ∧ t.mail = rest ∧ t.handled = s.handled ++ [m] ∧ t.busy = s.busy) ∨
  (s.mail = [] ∧ ∃ r post, s.busy = r :: post ∧ t.busy = post ∧ t.mail = [.failed r.endpoint r.idx] ∧ t.queue = s.queue ∧ t.handled = s.handled) ∨
  (s.mail = [] ∧ s.busy = [] ∧ ∃ r q, s.queue = r :: q ∧ t.queue = q ∧ t.busy = [r] ∧ t.mail = [] ∧ t.handled = s.handled)

/-- A torrent that starts, has got nothing and lost nothing. -/
structure Empty (w : World) (info : Info) (n : Nat) (s : Sys) : Prop where
  known : Known w info n s
  pos : 0 < n
  starts : Starts s
  lost : s.lost = []
  handed : handed s = []
  none : NoSuccess s

theorem empty_busy {w : World} {info : Info} {n : Nat} {s : Sys} (h : Empty w info n s) : s.mail ≠ [] ∨ s.busy ≠ [] ∨ s.queue ≠ [] := by
  refine Classical.byContradiction fun hn => ?_
  have h1 : s.mail = [] := Classical.byContradiction fun e => hn (.inl e)
  have h2 : s.busy = [] := Classical.byContradiction fun e => hn (.inr (.inl e))
  have h3 : s.queue = [] := Classical.byContradiction fun e => hn (.inr (.inr e))
  have hfl : flight s = [] := by simp [flight, h1, h2, h3, reports]
  rcases h.starts with hi | ⟨-, p, hp⟩
  · have hw : waiting s ≠ [] := by
      intro e
      have := h.known.perm.length_eq
      rw [e, hfl, h.handed, h.lost] at this
      simp at this
      have := h.pos
      omega
    have := h.known.full hi hw
    rw [hfl, h.lost] at this
    simp at this
  · rw [h1] at hp; cases hp

theorem can_fail {w : World} {info : Info} {n : Nat} {s : Sys} (h : Empty w info n s) :
    ∃ t, Step w s t ∧ peersReported t = peersReported s ∧ t.written = s.written ∧ NoSuccess t ∧ handed t = handed s ∧ t.lost = s.lost ∧ Fails s t := by
  have hkn := h.known
  cases hm : s.mail with
  | cons m rest =>
    have hc := counts_move s _ rest hm
    have hrest : ∀ e p i, Mail.success e p i ∉ rest := fun e p i hx => h.none e p i (by rw [hm]; exact List.mem_cons_of_mem _ hx)
    cases m with
    | found p =>
      refine ⟨_, .found s p rest hkn.up hm info hkn.hasInfo (List.replicate 5 (s.torrent.addPeer p).peers) (by simp) ?_, ?_, rfl, hrest, ?_, rfl,
        .inl ⟨_, rest, hm, rfl, rfl, rfl⟩⟩
      · intro l hl
        rw [List.eq_of_mem_replicate hl]
      · simp only [peersReported, Sys.after, hc]
      · simp only [handed, Sys.after, Torrent.onReady]
        split
        · split <;> simp
        · simp
    | success e piece i => exact absurd (by rw [hm]; exact List.mem_cons_self) (h.none e piece i)
    | failed e i =>
      refine ⟨_, .failed s e i rest hkn.up hm _ (.refl _), ?_, rfl, hrest, ?_, rfl, .inl ⟨_, rest, hm, rfl, rfl, rfl⟩⟩
      · simp only [peersReported, Sys.after, hc]
      · simp only [handed, Sys.after, Torrent.onFailed]
        split
        · simp
        · split
          · split <;> simp
          · simp
  | nil =>
    cases hb : s.busy with
    | cons r post =>
      obtain ⟨hri, a, ha⟩ := hkn.requests r (by rw [hb]; simp)
      have hdown : (downloadPiece w.sha w.build (dialOf r.endpoint (fun _ => none)) 0 [] r.info r.idx) = .err .stream := by
        rw [dialOf, ha]
        rfl
      refine ⟨_, .finishErr s [] post r hb (fun _ => none) 0 [] .stream hdown, ?_, rfl, ?_, rfl, rfl,
        .inr (.inl ⟨hm, r, post, hb, rfl, by rw [hm]; rfl, rfl, rfl⟩)⟩
      · simp [peersReported, hm]
      · intro e p i hx
        rw [hm] at hx
        simp at hx
    | nil =>
      rcases empty_busy h with e | e | e
      · exact absurd hm e
      · exact absurd hb e
      obtain ⟨r, q, hq⟩ := List.exists_cons_of_ne_nil e
      refine ⟨_, .take s r q hq ?_, rfl, rfl, h.none, rfl, rfl, .inr (.inr ⟨hm, hb, r, q, hq, rfl, by rw [hb]; rfl, hm, rfl⟩)⟩
      have h1 := hkn.workers
      rw [h.lost] at h1
      rw [hb]
      simp at h1 ⊢
      omega

/-- The program with such a torrent in slot `k`. -/
structure EmptyAt (w : World) (Q : Info → Prop) (fs : FS) (n : Nat) (k : Nat) (info : Info) (A : App) : Prop where
  reached : ASteps w Q (App.init fs n) A
  on : A.proc.log ≠ none
  free : A.Free k
  slot : ∃ s c, A.proc.slots[k]? = some s ∧ Empty w info c s.sys

theorem fail_step {w : World} {Q : Info → Prop} {fs : FS} {n : Nat} {k : Nat} {info : Info} {A : App} (h : EmptyAt w Q fs n k info A) :
    ∃ A', EmptyAt w Q fs n k info A' ∧ AStep w A A' ∧ ∀ s, A.proc.slots[k]? = some s → ∃ t, A'.proc.slots[k]? = some t ∧ Fails s.sys t.sys ∧ t.sys.told = s.sys.told := by
  obtain ⟨hA, hl, hf, s, c, hk, he⟩ := h
  have hlt := (List.getElem?_eq_some_iff.mp hk).1
  have hQ := holds_steps hA (fun x hx => by cases hx)
  have he' : Empty w info c { s.sys with fs := A.proc.fs } := ⟨known_fs he.known _, he.pos, he.starts, he.lost, he.handed, he.none⟩
  obtain ⟨t, h1, h2, h3, h4, h5, h6, h7⟩ := can_fail he'
  have htold := quiet_step h1 h2
  have st := work_set hl hk (PStep.act (w := w) A.proc k s t hk h1 h3) rfl rfl htold hf
  have hkt := known_step he'.known h1
  have hq := infos_set (k := k) (y := ⟨t, s.parts⟩) hQ fun i hi => by
    have e : t.torrent.info = some i := hi
    rw [hkt.hasInfo] at e
    exact hQ s (List.mem_of_getElem? hk) i (he.known.hasInfo.trans e)
  refine ⟨_, ⟨.tail hA st hq, hl, hf, ⟨t, s.parts⟩, c, List.getElem?_set_self hlt, ?_⟩, st, fun s' hs' => ?_⟩
  · exact ⟨hkt, he.pos, starts_step he'.known he.pos (C84_counters hA (List.mem_of_getElem? hk)) he'.starts h1, h6.trans he.lost, h5.trans he.handed, h4⟩
  · rw [hk] at hs'
    cases hs'
    exact ⟨⟨t, s.parts⟩, List.getElem?_set_self hlt, h7, htold⟩

/-- The run in which every download fails. -/
theorem fail_run {w : World} {Q : Info → Prop} {fs : FS} {n : Nat} {k : Nat} {info : Info} {A : App} (h : EmptyAt w Q fs n k info A) :
    ∃ (run : Nat → App) (f : Nat → Slot), run 0 = A ∧ (∀ i, EmptyAt w Q fs n k info (run i)) ∧ (∀ i, AStep w (run i) (run (i + 1))) ∧
      ∀ i, (run i).proc.slots[k]? = some (f i) ∧ Fails (f i).sys (f (i + 1)).sys ∧ (f (i + 1)).sys.told = (f i).sys.told := by
  let next : { A // EmptyAt w Q fs n k info A } → { A // EmptyAt w Q fs n k info A } := fun a =>
    ⟨Classical.choose (fail_step a.2), (Classical.choose_spec (fail_step a.2)).1⟩
  have hnext : ∀ a, AStep w a.1 (next a).1 ∧ ∀ s, a.1.proc.slots[k]? = some s → ∃ t, (next a).1.proc.slots[k]? = some t ∧ Fails s.sys t.sys ∧ t.sys.told = s.sys.told :=
    fun a => (Classical.choose_spec (fail_step a.2)).2
  let seq : Nat → { A // EmptyAt w Q fs n k info A } := fun i => Nat.rec ⟨A, h⟩ (fun _ a => next a) i
  have hslot : ∀ i, ∃ s, (seq i).1.proc.slots[k]? = some s := fun i => by
    obtain ⟨s, -, hs, -⟩ := (seq i).2.slot
    exact ⟨s, hs⟩
  refine ⟨fun i => (seq i).1, fun i => Classical.choose (hslot i), rfl, fun i => (seq i).2, fun i => (hnext (seq i)).1, fun i => ?_⟩
  have h1 := Classical.choose_spec (hslot i)
  refine ⟨h1, ?_⟩
  obtain ⟨t, h2, h3⟩ := (hnext (seq i)).2 _ h1
  have h4 := Classical.choose_spec (hslot (i + 1))
  have h5 : (seq (i + 1)).1.proc.slots[k]? = some t := h2
  rw [h4] at h5
  have h6 : Classical.choose (hslot (i + 1)) = t := Option.some.inj h5
  show Fails (Classical.choose (hslot i)).sys (Classical.choose (hslot (i + 1))).sys ∧
    (Classical.choose (hslot (i + 1))).sys.told = (Classical.choose (hslot i)).sys.told
  rw [h6]
  exact h3

/-- C120: the good peer is needed. From every state in which a torrent has its metadata, will start and has got and lost nothing, there is a fair run in which no worker
dies and no thread gets stuck, no more peers are named, and downloads fail more often than any number; nothing is ever got. -/
theorem C120_failing {w : World} {Q : Info → Prop} {fs : FS} {n : Nat} {A : App} (hA : ASteps w Q (App.init fs n) A) (hl : A.proc.log ≠ none) {k : Nat}
    (hf : A.Free k) {s : Slot} {info : Info} (hk : A.proc.slots[k]? = some s) (hi : s.sys.torrent.info = some info) (hs : Starts s.sys) (hlost : s.sys.lost = [])
    (hh : handed s.sys = []) (hn : ∀ e p i, Mail.success e p i ∉ s.sys.mail) (hpos : 0 < wrappedCount info) :
    ∃ run, Run w Q fs n run ∧ run 0 = A ∧ Fair run k ∧ (∀ i, (run i).Free k) ∧ (∀ i t, (run i).proc.slots[k]? = some t → t.sys.lost = [] ∧ handed t.sys = [] ∧ t.sys.told = s.sys.told) ∧
      (∀ B, ∃ i t, (run i).proc.slots[k]? = some t ∧ B < downloadsFailed t.sys) ∧
      ∃ i t, (run i).proc.slots[k]? = some t ∧ asked t.sys ≠ [] ∧ ¬ GoodPeer t.sys.handled := by
  have hm := List.mem_of_getElem? hk
  obtain ⟨c, hkn⟩ := among_known (C84_among hA hm) hi
  have hc : c = wrappedCount info := by
    have h1 := (C84_exact hA hm hi).length_eq
    have h2 := hkn.perm.length_eq
    rw [h1, List.length_range, List.length_range] at h2
    exact h2.symm
  obtain ⟨run, f, r0, r1, r2, r3⟩ := fail_run ⟨hA, hl, hf, s, c, hk, hkn, by omega, hs, hlost, hh, hn⟩
  have hrun : Run w Q fs n run := ⟨(r1 0).reached, fun i => (r1 i).on, r2, fun i => holds_steps (r1 i).reached (fun x hx => by cases hx)⟩
  have he : ∀ i t, (run i).proc.slots[k]? = some t → ∃ c, Empty w info c t.sys := by
    intro i t ht
    obtain ⟨s', c', h1, h2⟩ := (r1 i).slot
    rw [ht] at h1
    cases h1
    exact ⟨c', h2⟩
  have htold : ∀ i, (f i).sys.told = s.sys.told := by
    intro i
    induction i with
    | zero =>
      have := (r3 0).1
      rw [r0, hk] at this
      rw [Option.some.inj this]
    | succ i ih => rw [(r3 i).2.2, ih]
  have hfe : ∀ i t, (run i).proc.slots[k]? = some t → t = f i := by
    intro i t ht
    rw [(r3 i).1] at ht
    exact (Option.some.inj ht).symm
  -- messages are handled, downloads end, requests are taken
  have busy : ∀ m i, (f i).sys.mail.length ≤ m → (f i).sys.busy ≠ [] → ∃ j, i ≤ j ∧ (f j).sys.busy ≠ (f i).sys.busy := by
    intro m
    induction m with
    | zero =>
      intro i h1 h2
      rcases (r3 i).2.1 with ⟨m, rest, e1, -⟩ | ⟨-, r, post, e1, e2, -⟩ | ⟨-, e1, -⟩
      · rw [e1] at h1; simp at h1
      · refine ⟨i + 1, by omega, fun e => ?_⟩
        rw [e1, e2] at e
        have := congrArg List.length e
        simp at this
      · exact absurd e1 h2
    | succ m ih =>
      intro i h1 h2
      rcases (r3 i).2.1 with ⟨m', rest, e1, e2, -, e4⟩ | ⟨-, r, post, e1, e2, -⟩ | ⟨-, e1, -⟩
      · obtain ⟨j, j1, j2⟩ := ih (i + 1) (by rw [e2]; rw [e1] at h1; simpa using h1) (by rw [e4]; exact h2)
        exact ⟨j, by omega, by rw [e4] at j2; exact j2⟩
      · refine ⟨i + 1, by omega, fun e => ?_⟩
        rw [e1, e2] at e
        have := congrArg List.length e
        simp at this
      · exact absurd e1 h2
  have queue : ∀ m i, 2 * (f i).sys.busy.length + (f i).sys.mail.length ≤ m → (f i).sys.queue ≠ [] → ∃ j, i ≤ j ∧ (f j).sys.queue ≠ (f i).sys.queue := by
    intro m
    induction m with
    | zero =>
      intro i h1 h2
      rcases (r3 i).2.1 with ⟨m, rest, e1, -⟩ | ⟨-, r, post, e1, e2, -⟩ | ⟨-, -, r, q, e1, e2, -⟩
      · rw [e1] at h1; simp at h1
      · rw [e1] at h1; simp at h1
      · refine ⟨i + 1, by omega, fun e => ?_⟩
        rw [e1, e2] at e
        have := congrArg List.length e
        simp at this
    | succ m ih =>
      intro i h1 h2
      by_cases hq : (f (i + 1)).sys.queue = (f i).sys.queue
      · have hless : 2 * (f (i + 1)).sys.busy.length + (f (i + 1)).sys.mail.length ≤ m := by
          rcases (r3 i).2.1 with ⟨m', rest, e1, e2, -, e4⟩ | ⟨e0, r, post, e1, e2, e3, -⟩ | ⟨-, -, r, q, e1, e2, -⟩
          · rw [e2, e4]; rw [e1] at h1; simp at h1; omega
          · rw [e2, e3]; rw [e1, e0] at h1; simp at h1 ⊢; omega
          · rw [e1, e2] at hq
            have := congrArg List.length hq
            simp at this
        obtain ⟨j, j1, j2⟩ := ih (i + 1) hless (by rw [hq]; exact h2)
        exact ⟨j, by omega, by rw [hq] at j2; exact j2⟩
      · exact ⟨i + 1, by omega, hq⟩
  have more : ∀ m i, (f i).sys.mail.length ≤ m → ∃ j, downloadsFailed (f i).sys < downloadsFailed (f j).sys := by
    have fails : ∀ i r post, (f i).sys.mail = [] → (f i).sys.busy = r :: post → downloadsFailed (f i).sys < downloadsFailed (f (i + 1)).sys := by
      intro i r post h1 h2
      rcases (r3 i).2.1 with ⟨m, rest, e1, -⟩ | ⟨-, r', post', -, -, e3, -, e5⟩ | ⟨-, e1, -⟩
      · rw [e1] at h1; cases h1
      · simp only [downloadsFailed, e3, e5, h1, List.countP_append]
        simp
      · rw [e1] at h2; cases h2
    have drained : ∀ i, (f i).sys.mail = [] → ∃ j, downloadsFailed (f i).sys < downloadsFailed (f j).sys := by
      intro i h1
      rcases (r3 i).2.1 with ⟨m, rest, e1, -⟩ | ⟨-, r, post, e1, -⟩ | ⟨-, -, r, q, -, -, e3, e4, e5⟩
      · rw [e1] at h1; cases h1
      · exact ⟨i + 1, fails i r post h1 e1⟩
      · have := fails (i + 1) r [] e4 e3
        refine ⟨i + 1 + 1, Nat.lt_of_le_of_lt (Nat.le_of_eq ?_) this⟩
        simp only [downloadsFailed, h1, e4, e5]
    intro m
    induction m with
    | zero => intro i h1; exact drained i (List.length_eq_zero_iff.mp (by omega))
    | succ m ih =>
      intro i h1
      rcases (r3 i).2.1 with ⟨m', rest, e1, e2, e3, -⟩ | ⟨e0, -⟩ | ⟨e0, -⟩
      · obtain ⟨j, hj⟩ := ih (i + 1) (by rw [e2]; rw [e1] at h1; simpa using h1)
        refine ⟨j, Nat.lt_of_le_of_lt (Nat.le_of_eq ?_) hj⟩
        simp only [downloadsFailed, e1, e2, e3, List.append_assoc, List.singleton_append]
      · exact drained i e0
      · exact drained i e0
  have hB : ∀ B, ∃ i t, (run i).proc.slots[k]? = some t ∧ B < downloadsFailed t.sys := by
    intro B
    induction B with
    | zero =>
      obtain ⟨j, hj⟩ := more _ 0 (Nat.le_refl _)
      exact ⟨j, f j, (r3 j).1, by omega⟩
    | succ B ih =>
      obtain ⟨i, t, h1, h2⟩ := ih
      cases hfe i t h1
      obtain ⟨j, hj⟩ := more _ i (Nat.le_refl _)
      exact ⟨j, f j, (r3 j).1, by omega⟩
  refine ⟨run, hrun, r0, ⟨?_, ?_, ?_, ?_⟩, fun i => (r1 i).free, fun i t ht => ?_, hB, ?_⟩
  · intro i s' hs' hm' _ _
    cases hfe i s' hs'
    refine ⟨i + 1, f (i + 1), by omega, (r3 (i + 1)).1, fun e => ?_⟩
    rcases (r3 i).2.1 with ⟨m, rest, -, -, e3, -⟩ | ⟨e0, -⟩ | ⟨e0, -⟩
    · rw [e3] at e
      have := congrArg List.length e
      simp at this
    · exact hm' e0
    · exact hm' e0
  · intro i s' hs' hq' _
    cases hfe i s' hs'
    obtain ⟨j, j1, j2⟩ := queue _ i (Nat.le_refl _) hq'
    exact ⟨j, f j, j1, (r3 j).1, j2⟩
  · intro i s' hs' hb'
    cases hfe i s' hs'
    obtain ⟨j, j1, j2⟩ := busy _ i (Nat.le_refl _) hb'
    exact ⟨j, f j, j1, (r3 j).1, j2⟩
  · intro i s' hs' _ hr'
    obtain ⟨c', he'⟩ := he i s' hs'
    have := he'.handed
    simp only [handed, List.map_eq_nil_iff, List.append_eq_nil_iff] at this
    exact absurd this.2 hr'
  · obtain ⟨c', he'⟩ := he i t ht
    exact ⟨he'.lost, he'.handed, by rw [hfe i t ht]; exact htold i⟩
  · refine Classical.byContradiction fun hno => ?_
    obtain ⟨B, hb⟩ := C120_finitely hrun (k := k) fun i t ht ha => Classical.byContradiction fun hg => hno ⟨i, t, ht, ha, hg⟩
    obtain ⟨i, t, h1, h2⟩ := hB B
    have := hb i t h1
    omega

/-- In every world, on a disk with nothing but the metadata of a torrent of three bytes, the program can get to such a state. -/
example (w : World) (hsha : ∀ b, (w.sha b).length = 20) : ∃ A s, ASteps w (Beside (threeBytes w.sha)) (App.init (cachedFs w.cwd (List.replicate 20 17) (threeBytes w.sha)) 1) A ∧
    A.proc.log ≠ none ∧ A.Free 0 ∧ A.proc.slots[0]? = some s ∧ s.sys.torrent.info = some (threeBytes w.sha) ∧ Starts s.sys ∧ s.sys.lost = [] ∧ handed s.sys = [] ∧
    (∀ e p i, Mail.success e p i ∉ s.sys.mail) ∧ 0 < wrappedCount (threeBytes w.sha) := by
  obtain ⟨A, s, h1, h2, h3, h4, h5, h6, h7, h8, h9, -⟩ := about_to_start w hsha
  exact ⟨A, s, h1, h2, h3, h4, h5, h6, h7, h8, h9, by simp [wrappedCount, threeBytes]⟩

end RustBit
