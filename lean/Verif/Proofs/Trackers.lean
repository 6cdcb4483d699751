/-
Invariants of the tracker actors.
-/
import Verif.Spec.Trackers
import Verif.Props.Tracker

namespace RustBit

open Spec

/-- What holds of every tracker. -/
structure TrackInv (passed : List Registered) (t : TrackerSys) : Prop where
  sub : (t.spawned ++ t.mail).Sublist passed
  perm : ∃ lost, t.spawned.Perm (t.pending ++ t.answered ++ t.failed ++ lost) ∧ (t.up = true → lost = [])
  down : t.up = false → t.mail = [] ∧ t.pending = []

/-- What holds of all trackers. -/
structure LookupsInv (T : Trackers) : Prop where
  urls : T.trackers.map TrackerSys.url = builtinUrls
  sub : (T.passed ++ T.mail).Sublist T.added
  each : ∀ t ∈ T.trackers, TrackInv T.passed t
  told : Told T.log T.found
  genuine : ∀ e ∈ T.log, Genuine e
  logged : ∀ (k : Nat) (t : TrackerSys), T.trackers[k]? = some t →
    t.answered = (T.log.filter (fun e => e.tracker == k)).map Exchange.about

theorem tinv_init : LookupsInv Trackers.init := by
  refine ⟨?_, List.Sublist.refl _, ?_, .nil, (fun x hx => by cases hx), ?_⟩
  · show (builtinUrls.map TrackerSys.new).map TrackerSys.url = builtinUrls
    rw [List.map_map]
    exact List.map_id _
  · intro t ht
    obtain ⟨u, hu, rfl⟩ := List.mem_map.mp ht
    exact ⟨List.Sublist.refl _, ⟨[], List.Perm.refl _, fun _ => rfl⟩, (fun h => by cases h)⟩
  · intro k t hk
    obtain ⟨u, hu, rfl⟩ := List.mem_map.mp (List.mem_of_getElem? hk)
    rfl

theorem trackInv_mono {p p' : List Registered} {t : TrackerSys} (h : TrackInv p t) (hp : p.Sublist p') : TrackInv p' t :=
  ⟨h.sub.trans hp, h.perm, h.down⟩

theorem offer_inv {p : List Registered} {r : Registered} {t t' : TrackerSys} (h : Offer r t t')
    (hi : TrackInv p t) : TrackInv (p ++ [r]) t' := by
  cases h with
  | sent hu =>
    refine ⟨?_, hi.perm, ?_⟩
    · show (t.spawned ++ (t.mail ++ [r])).Sublist _
      rw [← List.append_assoc]
      exact hi.sub.append (List.Sublist.refl _)
    · intro hd
      have : t.up = false := hd
      rw [hu] at this
      cases this
  | full hu hm => exact trackInv_mono hi (List.sublist_append_left _ _)
  | closed hu => exact trackInv_mono hi (List.sublist_append_left _ _)

theorem offerAll_get {r : Registered} {ts ts' : List TrackerSys} (h : OfferAll r ts ts') :
    ∀ (k : Nat) (t' : TrackerSys), ts'[k]? = some t' → ∃ t, ts[k]? = some t ∧ Offer r t t' := by
  induction h with
  | nil => exact fun k t' h => by simp at h
  | cons h _ ih =>
    intro k t' hk
    cases k with
    | zero =>
      simp only [List.getElem?_cons_zero, Option.some.injEq] at hk
      subst hk
      exact ⟨_, rfl, h⟩
    | succ k =>
      rw [List.getElem?_cons_succ] at hk
      obtain ⟨t, ht, ho⟩ := ih k t' hk
      exact ⟨t, ht, ho⟩

theorem set_get {ts : List TrackerSys} {k : Nat} {t x : TrackerSys} (hk : ts[k]? = some t) {j : Nat} {y : TrackerSys}
    (h : (ts.set k x)[j]? = some y) : (j = k ∧ y = x) ∨ (j ≠ k ∧ ts[j]? = some y) := by
  rw [List.getElem?_set] at h
  split at h
  · rename_i e
    subst e
    rw [if_pos (List.getElem?_eq_some_iff.mp hk).1] at h
    cases h
    exact .inl ⟨rfl, rfl⟩
  · rename_i e
    exact .inr ⟨fun h => e h.symm, h⟩

/-- What the loop over the peers sends. -/
theorem reached_forward (tcp : Nat → List Nat × Nat → Bool) (peers : List PeerEndpoint)
    (h : ∀ p ∈ peers, ∃ x : Addr, x.port < 65536 ∧ x.IsDotted p.ip ∧ p.port = x.port ∧ parseSocketV4 p.endpoint = some x.numbers) :
    ∀ k, Reached tcp k peers (forwardLoop tcp k peers) := by
  induction peers with
  | nil => exact fun k => .nil k
  | cons p ps ih =>
    intro k
    obtain ⟨x, -, h2, h3, h4⟩ := h p List.mem_cons_self
    have hr := ih (fun q hq => h q (List.mem_cons_of_mem _ hq)) (k + 1)
    rw [forwardLoop, isReachable, h4]
    simp only []
    by_cases ht : tcp k x.numbers = true
    · rw [if_pos ht]
      exact .yes ⟨h2, h3⟩ ht hr
    · rw [if_neg ht]
      exact .no ⟨h2, h3⟩ (Bool.eq_false_iff.mpr ht) hr

theorem offerAll_mem {r : Registered} {ts ts' : List TrackerSys} (h : OfferAll r ts ts') :
    ∀ t' ∈ ts', ∃ t ∈ ts, Offer r t t' := by
  induction h with
  | nil => exact fun t' h => by cases h
  | cons h _ ih =>
    intro t' ht'
    rcases List.mem_cons.mp ht' with rfl | ht'
    · exact ⟨_, List.mem_cons_self, h⟩
    · obtain ⟨t, ht, ho⟩ := ih t' ht'
      exact ⟨t, List.mem_cons_of_mem _ ht, ho⟩

theorem offer_url {r : Registered} {t t' : TrackerSys} (h : Offer r t t') : t'.url = t.url := by
  cases h <;> rfl

theorem offerAll_urls {r : Registered} {ts ts' : List TrackerSys} (h : OfferAll r ts ts') :
    ts'.map TrackerSys.url = ts.map TrackerSys.url := by
  induction h with
  | nil => rfl
  | cons h _ ih => rw [List.map_cons, List.map_cons, ih, offer_url h]

theorem urls_set {ts : List TrackerSys} {k : Nat} {t t' : TrackerSys} (hk : ts[k]? = some t) (hu : t'.url = t.url) :
    (ts.set k t').map TrackerSys.url = ts.map TrackerSys.url := by
  apply List.ext_getElem?
  intro i
  rw [List.getElem?_map, List.getElem?_map, List.getElem?_set]
  split
  · rename_i h
    subst h
    rw [hk]
    have := (List.getElem?_eq_some_iff.mp hk).1
    rw [if_pos this]
    exact congrArg some hu
  · rfl

theorem mem_set_cases {ts : List TrackerSys} {k : Nat} {t' x : TrackerSys} (h : x ∈ ts.set k t') : x = t' ∨ x ∈ ts :=
  (List.mem_or_eq_of_mem_set h).symm

theorem perm_move {sp pre post ans fl lost : List Registered} {r : Registered}
    (h : sp.Perm (pre ++ r :: post ++ ans ++ fl ++ lost)) :
    sp.Perm (pre ++ post ++ (ans ++ [r]) ++ fl ++ lost) ∧ sp.Perm (pre ++ post ++ ans ++ (fl ++ [r]) ++ lost) := by
  rw [List.perm_iff_count] at h
  constructor <;>
  · rw [List.perm_iff_count]
    intro a
    have := h a
    simp only [List.count_append, List.count_cons, List.count_nil] at *
    omega

theorem tinv_step {T T' : Trackers} (hs : TStep T T') (hi : LookupsInv T) : LookupsInv T' := by
  cases hs with
  | add r =>
    refine ⟨hi.urls, ?_, hi.each, hi.told, hi.genuine, hi.logged⟩
    show (T.passed ++ (T.mail ++ [r])).Sublist _
    rw [← List.append_assoc]
    exact hi.sub.append (List.Sublist.refl _)
  | addFull r h =>
    exact ⟨hi.urls, hi.sub.trans (List.sublist_append_left _ _), hi.each, hi.told, hi.genuine, hi.logged⟩
  | pass r rest ts hm h =>
    refine ⟨(offerAll_urls h).trans hi.urls, ?_, ?_, hi.told, hi.genuine, ?_⟩
    · show (T.passed ++ [r] ++ rest).Sublist _
      rw [List.append_assoc]
      have := hi.sub
      rw [hm] at this
      exact this
    · intro t' ht'
      obtain ⟨t, ht, ho⟩ := offerAll_mem h t' ht'
      exact offer_inv ho (hi.each t ht)
    · intro k t' hk
      obtain ⟨t, ht, ho⟩ := offerAll_get h k t' hk
      have := hi.logged k t ht
      cases ho <;> exact this
  | spawn k t r rest hk hu hm =>
    have hmem := List.mem_of_getElem? hk
    refine ⟨(urls_set hk (t' := { t with mail := rest, pending := t.pending ++ [r], spawned := t.spawned ++ [r] }) rfl).trans hi.urls,
      hi.sub, ?_, hi.told, hi.genuine, ?_⟩
    case refine_2 =>
      intro j y hy
      rcases set_get hk hy with ⟨rfl, rfl⟩ | ⟨-, hy⟩
      · exact hi.logged j t hk
      · exact hi.logged j y hy
    intro x hx
    rcases mem_set_cases hx with rfl | hx
    · have ht := hi.each t hmem
      refine ⟨?_, ?_, ?_⟩
      · have := ht.sub
        rw [hm] at this
        show (t.spawned ++ [r] ++ rest).Sublist _
        rw [List.append_assoc]
        exact this
      · obtain ⟨lost, hp, hl⟩ := ht.perm
        refine ⟨lost, ?_, hl⟩
        show (t.spawned ++ [r]).Perm (t.pending ++ [r] ++ t.answered ++ t.failed ++ lost)
        rw [List.perm_iff_count] at *
        intro a
        have := hp a
        simp only [List.count_append] at *
        omega
      · intro hd
        have : t.up = false := hd
        rw [hu] at this
        cases this
    · exact hi.each x hx
  | answer k t pre post r hk hu hp udp http tcp peerId peers traffic h =>
    have hmem := List.mem_of_getElem? hk
    have ht := hi.each t hmem
    refine ⟨(urls_set hk (t' := { t with pending := pre ++ post, answered := t.answered ++ [r] }) rfl).trans hi.urls,
      hi.sub, ?_, ?_, ?_, ?_⟩
    · intro x hx
      rcases mem_set_cases hx with rfl | hx
      · refine ⟨ht.sub, ?_, ?_⟩
        · obtain ⟨lost, hpm, hl⟩ := ht.perm
          rw [hp] at hpm
          exact ⟨lost, (perm_move hpm).1, hl⟩
        · intro hd
          have : t.up = false := hd
          rw [hu] at this
          cases this
      · exact hi.each x hx
    · exact .snoc hi.told ⟨k, r, peers, tcp⟩ _
        (reached_forward tcp peers (C57_endpoint_parses udp http peerId t.url r.infoHash peers (by rw [h])) 0)
    · intro e he
      rcases List.mem_append.mp he with he | he
      · exact hi.genuine e he
      · obtain rfl := List.mem_singleton.mp he
        refine ⟨t.url, udp, http, peerId, ?_, by rw [h]⟩
        rw [← hi.urls, List.getElem?_map, hk]
        rfl
    · intro j y hy
      show _ = ((T.log ++ [(⟨k, r, peers, tcp⟩ : Exchange)]).filter _).map _
      rw [List.filter_append, List.map_append]
      rcases set_get hk hy with ⟨rfl, rfl⟩ | ⟨hne, hy⟩
      · show t.answered ++ [r] = _
        rw [← hi.logged j t hk]
        simp
      · rw [← hi.logged j y hy]
        have : (k == j) = false := by simpa using fun h => hne h.symm
        simp [this]
  | fail k t pre post r hk hu hp udp http peerId e traffic h =>
    have hmem := List.mem_of_getElem? hk
    have ht := hi.each t hmem
    refine ⟨(urls_set hk (t' := { t with pending := pre ++ post, failed := t.failed ++ [r] }) rfl).trans hi.urls,
      hi.sub, ?_, hi.told, hi.genuine, ?_⟩
    case refine_2 =>
      intro j y hy
      rcases set_get hk hy with ⟨rfl, rfl⟩ | ⟨-, hy⟩
      · exact hi.logged j t hk
      · exact hi.logged j y hy
    intro x hx
    rcases mem_set_cases hx with rfl | hx
    · refine ⟨ht.sub, ?_, ?_⟩
      · obtain ⟨lost, hpm, hl⟩ := ht.perm
        rw [hp] at hpm
        exact ⟨lost, (perm_move hpm).2, hl⟩
      · intro hd
        have : t.up = false := hd
        rw [hu] at this
        cases this
    · exact hi.each x hx
  | crash k t r hk hu hp udp http peerId traffic h =>
    have hmem := List.mem_of_getElem? hk
    have ht := hi.each t hmem
    refine ⟨(urls_set hk (t' := { t with up := false, mail := [], pending := [] }) rfl).trans hi.urls, hi.sub, ?_,
      hi.told, hi.genuine, ?_⟩
    case refine_2 =>
      intro j y hy
      rcases set_get hk hy with ⟨rfl, rfl⟩ | ⟨-, hy⟩
      · exact hi.logged j t hk
      · exact hi.logged j y hy
    intro x hx
    rcases mem_set_cases hx with rfl | hx
    · refine ⟨?_, ?_, fun _ => ⟨rfl, rfl⟩⟩
      · exact (List.Sublist.append (List.Sublist.refl t.spawned) (List.nil_sublist t.mail)).trans ht.sub
      · obtain ⟨lost, hpm, hl⟩ := ht.perm
        refine ⟨t.pending ++ lost, ?_, fun hd => by cases hd⟩
        show t.spawned.Perm ([] ++ t.answered ++ t.failed ++ (t.pending ++ lost))
        rw [List.perm_iff_count] at *
        intro a
        have := hpm a
        simp only [List.count_append, List.count_nil] at *
        omega
    · exact hi.each x hx

theorem tinv_steps {T T' : Trackers} (hs : TSteps T T') (hi : LookupsInv T) : LookupsInv T' := by
  induction hs with
  | refl => exact hi
  | tail _ h ih => exact tinv_step h ih

/-- Nothing has been dropped. -/
def TExact (T : Trackers) : Prop :=
  T.added = T.passed ++ T.mail ∧ ∀ t ∈ T.trackers, t.up = true → T.passed = t.spawned ++ t.mail

theorem exact_step {T T' : Trackers} (hs : TStep T T') (he : TExact T) (h1 : T.mail.length < 16)
    (h2 : T.mail ≠ [] → ∀ t ∈ T.trackers, t.mail.length < 16) : TExact T' := by
  cases hs with
  | add r =>
    refine ⟨?_, he.2⟩
    show T.added ++ [r] = T.passed ++ (T.mail ++ [r])
    rw [← List.append_assoc, ← he.1]
  | addFull r h => exact absurd h1 (Nat.not_lt.mpr h)
  | pass r rest ts hm h =>
    refine ⟨?_, ?_⟩
    · show T.added = T.passed ++ [r] ++ rest
      rw [he.1, hm, List.append_assoc]
      rfl
    · intro t' ht' hu
      obtain ⟨t, ht, ho⟩ := offerAll_mem h t' ht'
      have hl := h2 (by rw [hm]; exact List.cons_ne_nil _ _) t ht
      cases ho with
      | sent hu' =>
        show T.passed ++ [r] = t.spawned ++ (t.mail ++ [r])
        rw [← List.append_assoc, ← he.2 t ht hu']
      | full _ hc => exact absurd hl (Nat.not_lt.mpr hc)
      | closed hd =>
        rw [hd] at hu
        cases hu
  | spawn k t r rest hk hu hm =>
    refine ⟨he.1, ?_⟩
    intro x hx hux
    rcases mem_set_cases hx with rfl | hx
    · show T.passed = t.spawned ++ [r] ++ rest
      rw [he.2 t (List.mem_of_getElem? hk) hu, hm, List.append_assoc]
      rfl
    · exact he.2 x hx hux
  | answer k t pre post r hk hu hp udp http tcp peerId peers traffic h =>
    refine ⟨he.1, ?_⟩
    intro x hx hux
    rcases mem_set_cases hx with rfl | hx
    · exact he.2 t (List.mem_of_getElem? hk) hu
    · exact he.2 x hx hux
  | fail k t pre post r hk hu hp udp http peerId e traffic h =>
    refine ⟨he.1, ?_⟩
    intro x hx hux
    rcases mem_set_cases hx with rfl | hx
    · exact he.2 t (List.mem_of_getElem? hk) hu
    · exact he.2 x hx hux
  | crash k t r hk hu hp udp http peerId traffic h =>
    refine ⟨he.1, ?_⟩
    intro x hx hux
    rcases mem_set_cases hx with rfl | hx
    · cases hux
    · exact he.2 x hx hux

theorem exact_init : TExact Trackers.init := by
  refine ⟨rfl, ?_⟩
  intro t ht _
  obtain ⟨u, hu, rfl⟩ := List.mem_map.mp ht
  rfl

theorem exact_calm {T T' : Trackers} (hs : CalmSteps T T') (he : TExact T) : TExact T' := by
  induction hs with
  | refl => exact he
  | tail _ hc h ih => exact exact_step h ih hc.1 (fun _ => hc.2)

theorem calm_steps {T T' : Trackers} (hs : CalmSteps T T') : TSteps T T' := by
  induction hs with
  | refl => exact .refl _
  | tail _ _ h ih => exact ih.tail h

theorem added_step {T T' : Trackers} (hs : TStep T T') : ∃ more, T'.added = T.added ++ more := by
  cases hs with
  | add r => exact ⟨_, rfl⟩
  | addFull r h => exact ⟨_, rfl⟩
  | _ => exact ⟨[], (List.append_nil _).symm⟩

theorem added_steps {T T' : Trackers} (hs : TSteps T T') : ∃ more, T'.added = T.added ++ more := by
  induction hs with
  | refl => exact ⟨[], (List.append_nil _).symm⟩
  | tail _ h ih =>
    obtain ⟨m, e⟩ := ih
    obtain ⟨m', e'⟩ := added_step h
    exact ⟨m ++ m', by rw [e', e, List.append_assoc]⟩

theorem exact_few {T : Trackers} (hs : TSteps Trackers.init T) (hn : T.added.length ≤ 16) : TExact T := by
  generalize hI : Trackers.init = I at hs
  induction hs with
  | refl =>
    subst hI
    exact exact_init
  | tail hp h ih =>
    rename_i T' T''
    subst hI
    obtain ⟨m, e⟩ := added_step h
    have hle : T'.added.length ≤ 16 := by
      rw [e, List.length_append] at hn
      omega
    have he := ih hle
    have hinv := tinv_steps hp tinv_init
    have hlen : T'.passed.length + T'.mail.length = T'.added.length := by
      rw [he.1, List.length_append]
    by_cases hfull : T'.mail.length < 16
    · refine exact_step h he hfull ?_
      intro hne t ht
      have h1 := (hinv.each t ht).sub.length_le
      rw [List.length_append] at h1
      have : 0 < T'.mail.length := List.length_pos_iff.mpr hne
      omega
    · -- the sixteen torrents are all waiting: nothing more is added, and the trackers have got nothing
      cases h with
      | add r =>
        exfalso
        have : T'.added.length + 1 ≤ 16 := by
          have : (T'.added ++ [r]).length ≤ 16 := hn
          rw [List.length_append] at this
          exact this
        omega
      | addFull r h =>
        exfalso
        have : T'.added.length + 1 ≤ 16 := by
          have : (T'.added ++ [r]).length ≤ 16 := hn
          rw [List.length_append] at this
          exact this
        omega
      | pass r rest ts hm ho =>
        refine ⟨?_, ?_⟩
        · show T'.added = T'.passed ++ [r] ++ rest
          rw [he.1, hm, List.append_assoc]
          rfl
        · intro t' ht' hu
          obtain ⟨t, ht, hot⟩ := offerAll_mem ho t' ht'
          have h1 := (hinv.each t ht).sub.length_le
          rw [List.length_append] at h1
          cases hot with
          | sent hu' =>
            show T'.passed ++ [r] = t.spawned ++ (t.mail ++ [r])
            rw [← List.append_assoc, ← he.2 t ht hu']
          | full _ hc =>
            exfalso
            have : 16 ≤ t'.mail.length := hc
            omega
          | closed hd =>
            rw [hd] at hu
            cases hu
      | spawn k t r rest hk hu hm =>
        exfalso
        have h1 := (hinv.each t (List.mem_of_getElem? hk)).sub.length_le
        rw [List.length_append, hm, List.length_cons] at h1
        omega
      | answer k t pre post r hk hu hp udp http tcp peerId peers traffic h =>
        exfalso
        have ht := hinv.each t (List.mem_of_getElem? hk)
        have h1 := ht.sub.length_le
        obtain ⟨lost, hpm, _⟩ := ht.perm
        have h2 := hpm.length_eq
        rw [hp] at h2
        simp only [List.length_append, List.length_cons] at h1 h2
        omega
      | fail k t pre post r hk hu hp udp http peerId e traffic h =>
        exfalso
        have ht := hinv.each t (List.mem_of_getElem? hk)
        have h1 := ht.sub.length_le
        obtain ⟨lost, hpm, _⟩ := ht.perm
        have h2 := hpm.length_eq
        rw [hp] at h2
        simp only [List.length_append, List.length_cons] at h1 h2
        omega
      | crash k t r hk hu hp udp http peerId traffic h =>
        exfalso
        have ht := hinv.each t (List.mem_of_getElem? hk)
        have h1 := ht.sub.length_le
        obtain ⟨lost, hpm, _⟩ := ht.perm
        have h2 := hpm.length_eq
        have h3 := List.length_pos_of_mem hp
        simp only [List.length_append] at h1 h2
        omega

/-- A tracker whose actor has ended stays as it is. -/
theorem down_step {T T' : Trackers} (hs : TStep T T') {k : Nat} {t : TrackerSys} (hk : T.trackers[k]? = some t)
    (hd : t.up = false) : T'.trackers[k]? = some t := by
  have hset : ∀ (j : Nat) (x y : TrackerSys), T.trackers[j]? = some x → x.up = true → (T.trackers.set j y)[k]? = some t := by
    intro j x y hj hu
    rw [List.getElem?_set_ne, hk]
    intro e
    subst e
    rw [hk] at hj
    cases hj
    rw [hd] at hu
    cases hu
  cases hs with
  | add r => exact hk
  | addFull r h => exact hk
  | pass r rest ts hm h =>
    show ts[k]? = some t
    have hgen : ∀ {l l' : List TrackerSys}, OfferAll r l l' → ∀ k : Nat, l[k]? = some t → l'[k]? = some t := by
      intro l l' ho
      induction ho with
      | nil => exact fun k h => by simp at h
      | cons h _ ih =>
        intro k hk
        cases k with
        | zero =>
          simp only [List.getElem?_cons_zero, Option.some.injEq] at hk ⊢
          subst hk
          cases h with
          | sent hu => rw [hd] at hu; cases hu
          | full => rfl
          | closed => rfl
        | succ k =>
          rw [List.getElem?_cons_succ] at hk ⊢
          exact ih k hk
    exact hgen h k hk
  | spawn j x r rest hj hu hm => exact hset j x _ hj hu
  | answer j x pre post r hj hu hp udp http tcp peerId peers traffic h => exact hset j x _ hj hu
  | fail j x pre post r hj hu hp udp http peerId e traffic h => exact hset j x _ hj hu
  | crash j x r hj hu hp udp http peerId traffic h => exact hset j x _ hj hu

theorem down_steps {T T' : Trackers} (hs : TSteps T T') {k : Nat} {t : TrackerSys} (hk : T.trackers[k]? = some t)
    (hd : t.up = false) : T'.trackers[k]? = some t := by
  induction hs with
  | refl => exact hk
  | tail _ h ih => exact down_step h ih hd

/-- A registration that is nowhere and does not come again never gets anywhere. -/
theorem gone_step {T T' : Trackers} (hs : TStep T T') (r : Registered) (hm : r ∉ T.mail)
    (ht : ∀ t ∈ T.trackers, r ∉ t.mail ∧ r ∉ t.spawned) :
    (r ∉ T'.mail ∧ ∀ t ∈ T'.trackers, r ∉ t.mail ∧ r ∉ t.spawned) ∨ T'.added = T.added ++ [r] := by
  cases hs with
  | add q =>
    by_cases e : q = r
    · subst e
      exact .inr rfl
    · refine .inl ⟨?_, ht⟩
      intro h
      rcases List.mem_append.mp h with h | h
      · exact hm h
      · exact e (List.mem_singleton.mp h).symm
  | addFull q h => exact .inl ⟨hm, ht⟩
  | pass q rest ts hmm h =>
    have hq : q ≠ r := by
      intro e
      subst e
      exact hm (by rw [hmm]; exact List.mem_cons_self)
    refine .inl ⟨fun h => hm (by rw [hmm]; exact List.mem_cons_of_mem _ h), ?_⟩
    intro t' ht'
    obtain ⟨t, htm, ho⟩ := offerAll_mem h t' ht'
    have := ht t htm
    cases ho with
    | sent hu =>
      refine ⟨?_, this.2⟩
      intro h
      rcases List.mem_append.mp h with h | h
      · exact this.1 h
      · exact hq (List.mem_singleton.mp h).symm
    | full => exact this
    | closed => exact this
  | spawn j x q rest hj hu hmm =>
    have hx := ht x (List.mem_of_getElem? hj)
    refine .inl ⟨hm, ?_⟩
    intro y hy
    rcases mem_set_cases hy with rfl | hy
    · refine ⟨fun h => hx.1 (by rw [hmm]; exact List.mem_cons_of_mem _ h), ?_⟩
      intro h
      rcases List.mem_append.mp h with h | h
      · exact hx.2 h
      · exact hx.1 (by rw [hmm, List.mem_singleton.mp h]; exact List.mem_cons_self)
    · exact ht y hy
  | answer j x pre post q hj hu hp udp http tcp peerId peers traffic h =>
    refine .inl ⟨hm, ?_⟩
    intro y hy
    rcases mem_set_cases hy with rfl | hy
    · exact ht x (List.mem_of_getElem? hj)
    · exact ht y hy
  | fail j x pre post q hj hu hp udp http peerId e traffic h =>
    refine .inl ⟨hm, ?_⟩
    intro y hy
    rcases mem_set_cases hy with rfl | hy
    · exact ht x (List.mem_of_getElem? hj)
    · exact ht y hy
  | crash j x q hj hu hp udp http peerId traffic h =>
    refine .inl ⟨hm, ?_⟩
    intro y hy
    rcases mem_set_cases hy with rfl | hy
    · exact ⟨(fun h => by cases h), (ht x (List.mem_of_getElem? hj)).2⟩
    · exact ht y hy

theorem gone_steps {T T' : Trackers} (hs : TSteps T T') (r : Registered) (hm : r ∉ T.mail)
    (ht : ∀ t ∈ T.trackers, r ∉ t.mail ∧ r ∉ t.spawned) :
    (r ∉ T'.mail ∧ ∀ t ∈ T'.trackers, r ∉ t.mail ∧ r ∉ t.spawned) ∨ ∃ more, T'.added = T.added ++ more ∧ r ∈ more := by
  induction hs with
  | refl => exact .inl ⟨hm, ht⟩
  | tail hp h ih =>
    rcases ih with ih | ⟨more, e, hr⟩
    · rcases gone_step h r ih.1 ih.2 with h' | h'
      · exact .inl h'
      · obtain ⟨m, em⟩ := added_steps hp
        exact .inr ⟨m ++ [r], by rw [h', em, List.append_assoc], by simp⟩
    · obtain ⟨m, em⟩ := added_step h
      exact .inr ⟨more ++ m, by rw [em, e, List.append_assoc], List.mem_append_left _ hr⟩

end RustBit
