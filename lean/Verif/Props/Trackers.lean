/-
C73: every torrent is looked up at every tracker, and the peers found are told to it and to no other.
-/
import Verif.Proofs.Trackers

namespace RustBit

open Spec

/-- C73: whatever happens, the messages sent are exactly those that follow from the answers got: for each answer, which is one the tracker gave
when asked about the torrent's own info hash, the peers in it that can be reached, in order, to this torrent. -/
theorem C73_right_torrent {T : Trackers} (h : TSteps Trackers.init T) :
    Told T.log T.found ∧ (∀ e ∈ T.log, Genuine e) ∧ ∀ e ∈ T.log, e.about ∈ T.added := by
  have hi := tinv_steps h tinv_init
  refine ⟨hi.told, hi.genuine, ?_⟩
  intro e he
  obtain ⟨u, -, -, -, hu, -⟩ := hi.genuine e he
  have hlt := (List.getElem?_eq_some_iff.mp hu).1
  have hlen : T.trackers.length = builtinUrls.length := by rw [← hi.urls, List.length_map]
  have hk : T.trackers[e.tracker]? = some T.trackers[e.tracker] := List.getElem?_eq_getElem (by omega)
  have hl := hi.logged _ _ hk
  have hmem : e.about ∈ (T.trackers[e.tracker]'(by omega)).answered := by
    rw [hl]
    exact List.mem_map.mpr ⟨e, List.mem_filter.mpr ⟨he, by simp⟩, rfl⟩
  have ht := hi.each _ (List.mem_of_getElem? hk)
  obtain ⟨lost, hp, -⟩ := ht.perm
  exact hi.sub.subset (List.mem_append_left _ (ht.sub.subset (List.mem_append_left _ (hp.mem_iff.mpr (by simp [hmem])))))

theorem peers_from_bytes (udp : UdpNet) (http : Bytes → HttpGet) (peerId : Bytes) (url : TrackerUrl) (infoHash : Bytes)
    (peers : List PeerEndpoint) (h : (getPeersByTracker udp http peerId url infoHash).1 = .ok peers) :
    ∃ b, peers = PeerEndpoint.fromBytes b := by
  unfold getPeersByTracker at h
  split at h
  · cases hc : tcpCall http infoHash peerId url <;> rw [hc] at h <;> cases h
    exact ⟨_, rfl⟩
  · split at h
    · rcases hc : udpCall udp infoHash peerId url with ⟨r, s⟩
      rw [hc] at h
      cases r <;> cases h
      exact ⟨_, rfl⟩
    · cases h

/-- C73: every message is to a torrent that has been added, and reports a peer as the model of the torrent actors assumes of such messages
(`Step.announce`). -/
theorem C73_messages_are_peers {T : Trackers} (h : TSteps Trackers.init T) :
    ∀ x ∈ T.found, ∃ r ∈ T.added, x.1 = r.torrent ∧ ∃ bytes, x.2 ∈ PeerEndpoint.fromBytes bytes := by
  obtain ⟨h1, h2, h3⟩ := C73_right_torrent h
  have hre : ∀ {tcp : Nat → List Nat × Nat → Bool} {k : Nat} {ps qs : List PeerEndpoint}, Reached tcp k ps qs → ∀ p ∈ qs, p ∈ ps := by
    intro tcp k ps qs hr
    induction hr with
    | nil => exact fun p hp => by cases hp
    | yes hx _ _ ih =>
      intro p hp
      rcases List.mem_cons.mp hp with rfl | hp
      · exact List.mem_cons_self
      · exact List.mem_cons_of_mem _ (ih p hp)
    | no _ _ _ ih => exact fun p hp => List.mem_cons_of_mem _ (ih p hp)
  clear h
  generalize T.added = added at h3
  generalize T.log = log at h1 h2 h3
  generalize T.found = found at h1
  induction h1 with
  | nil => exact fun x hx => by cases hx
  | snoc _ e qs hr ih =>
    intro x hx
    rcases List.mem_append.mp hx with hx | hx
    · exact ih (fun e he => h2 e (List.mem_append_left _ he)) (fun e he => h3 e (List.mem_append_left _ he)) x hx
    · obtain ⟨p, hp, rfl⟩ := List.mem_map.mp hx
      obtain ⟨u, udp, http, peerId, -, hg⟩ := h2 e (by simp)
      obtain ⟨b, hb⟩ := peers_from_bytes udp http peerId u _ _ hg
      exact ⟨e.about, h3 e (by simp), rfl, b, hb ▸ hre hr p hp⟩

/-- C73: at every tracker each torrent is looked up at most as often as it has been added, in this order; each lookup is still going on, has
been answered (as logged) or has failed, unless the tracker's actor has ended. -/
theorem C73_at_most_once {T : Trackers} (h : TSteps Trackers.init T) {k : Nat} {t : TrackerSys} (hk : T.trackers[k]? = some t) :
    t.spawned.Sublist T.added ∧
    (∀ r, t.pending.count r + t.answered.count r + t.failed.count r ≤ t.spawned.count r) ∧
    (t.up = true → ∀ r, t.pending.count r + t.answered.count r + t.failed.count r = t.spawned.count r) ∧
    t.answered = (T.log.filter (fun e => e.tracker == k)).map Exchange.about := by
  have hi := tinv_steps h tinv_init
  have ht := hi.each t (List.mem_of_getElem? hk)
  obtain ⟨lost, hp, hl⟩ := ht.perm
  rw [List.perm_iff_count] at hp
  refine ⟨?_, ?_, ?_, hi.logged k t hk⟩
  · exact ((List.sublist_append_left _ _).trans ht.sub).trans ((List.sublist_append_left _ _).trans hi.sub)
  · intro r
    have := hp r
    simp only [List.count_append] at this
    omega
  · intro hu r
    have := hp r
    rw [hl hu] at this
    simp only [List.count_append, List.count_nil] at this
    omega

/-- C73 as long as no mailbox gets full: at a tracker whose actor is running, all torrents added are looked up, exactly once per addition and in
order, when the mailboxes are empty again. Missing: full mailboxes, and trackers whose actor has ended; see the refutations. -/
theorem C73_all_trackers_partial {T : Trackers} (h : CalmSteps Trackers.init T) {k : Nat} {t : TrackerSys} (hk : T.trackers[k]? = some t)
    (hu : t.up = true) : T.added = t.spawned ++ t.mail ++ T.mail := by
  have he := exact_calm h exact_init
  rw [he.1, he.2 t (List.mem_of_getElem? hk) hu]

/-- C73 for at most sixteen torrents, whatever the speed of the actors. -/
theorem C73_sixteen_partial {T : Trackers} (h : TSteps Trackers.init T) (hn : T.added.length ≤ 16) {k : Nat} {t : TrackerSys}
    (hk : T.trackers[k]? = some t) (hu : t.up = true) : T.added = t.spawned ++ t.mail ++ T.mail := by
  have he := exact_few h hn
  rw [he.1, he.2 t (List.mem_of_getElem? hk) hu]

/-! ### Witnesses -/

theorem tsteps_trans {A B C : Trackers} (h1 : TSteps A B) (h2 : TSteps B C) : TSteps A C := by
  induction h2 with
  | refl => exact h1
  | tail _ h ih => exact ih.tail h

/-- Everybody gets the message. -/
def offered (r : Registered) (ts : List TrackerSys) : List TrackerSys :=
  ts.map fun t => if t.up then { t with mail := t.mail ++ [r] } else t

theorem offerAll_offered (r : Registered) (ts : List TrackerSys) : OfferAll r ts (offered r ts) := by
  induction ts with
  | nil => exact .nil
  | cons t ts ih =>
    refine .cons ?_ ih
    simp only []
    by_cases hu : t.up = true
    · rw [if_pos hu]
      exact .sent t hu
    · rw [if_neg hu]
      exact .closed t (Bool.eq_false_iff.mpr hu)

theorem offered_get (r : Registered) {ts : List TrackerSys} {k : Nat} {t : TrackerSys} (hk : ts[k]? = some t) :
    (offered r ts)[k]? = some (if t.up then { t with mail := t.mail ++ [r] } else t) := by
  unfold offered
  rw [List.getElem?_map, hk]
  rfl

/-- A torrent is added and passed on, nobody else being in the way. -/
theorem add_pass (T : Trackers) (r : Registered) (hm : T.mail = []) :
    TSteps T { T with mail := [], trackers := offered r T.trackers, added := T.added ++ [r], passed := T.passed ++ [r] } := by
  have h1 := TStep.add T r
  have h2 := TStep.pass { T with mail := T.mail ++ [r], added := T.added ++ [r] } r [] (offered r T.trackers)
    (by rw [hm]; rfl) (offerAll_offered r T.trackers)
  exact (TSteps.refl T).tail h1 |>.tail h2

/-- A socket that cannot be had. -/
def noSocket : UdpNet := ⟨false, fun _ => true, fun _ => true, fun _ => .never⟩

/-- A socket on which nothing can be received. -/
def deaf : UdpNet := ⟨true, fun _ => true, fun _ => true, fun _ => .failed⟩

theorem builtin_lookup {k : Nat} {u : TrackerUrl} (hk : builtinUrls[k]? = some u) :
    ∃ host port, u = ⟨b!"udp", some host, some port, u.asStr⟩ := by
  obtain ⟨⟨h, p⟩, hm, rfl⟩ := List.mem_map.mp (List.mem_of_getElem? hk)
  exact ⟨h, p, rfl⟩

theorem noSocket_panics {k : Nat} {u : TrackerUrl} (hk : builtinUrls[k]? = some u) (hash : Bytes) :
    getPeersByTracker noSocket (fun _ => .failed) [] u hash = (.panic, ⟨[], []⟩) := by
  obtain ⟨h, p, e⟩ := builtin_lookup hk
  rw [e]
  rfl

theorem deaf_fails {k : Nat} {u : TrackerUrl} (hk : builtinUrls[k]? = some u) (hash : Bytes) :
    ∃ e traffic, getPeersByTracker deaf (fun _ => .failed) [] u hash = (.err e, traffic) := by
  obtain ⟨h, p, e⟩ := builtin_lookup hk
  rw [e]
  exact ⟨_, _, rfl⟩

theorem init_get {k : Nat} {u : TrackerUrl} (hk : builtinUrls[k]? = some u) : Trackers.init.trackers[k]? = some (TrackerSys.new u) := by
  show (builtinUrls.map TrackerSys.new)[k]? = _
  rw [List.getElem?_map, hk]
  rfl

/-- The full C73 is false: if for any torrent no socket can be had at any one moment, the tracker's actor ends; a torrent added later, however much
later, is never looked up at this tracker. -/
theorem C73_refuted_crash (r r' : Registered) (hne : r ≠ r') {k : Nat} {u : TrackerUrl} (hk : builtinUrls[k]? = some u) :
    ∃ T, TSteps Trackers.init T ∧ T.added = [r, r'] ∧ T.mail = [] ∧ (∀ j t, T.trackers[j]? = some t → j ≠ k → t.up = true) ∧
      ∀ T', TSteps T T' → ∃ t, T'.trackers[k]? = some t ∧ r' ∉ t.mail ∧ r' ∉ t.spawned ∧ t.answered = [] := by
  have hg := init_get hk
  have h1 := add_pass Trackers.init r rfl
  have hg1 := offered_get r hg
  generalize hts : offered r Trackers.init.trackers = ts at h1 hg1
  have h2 := h1.tail (.spawn _ k _ r [] hg1 rfl rfl)
  have hlt : k < ts.length := (List.getElem?_eq_some_iff.mp hg1).1
  have h3 := h2.tail (.crash _ k _ r (List.getElem?_set_self hlt) rfl (List.mem_singleton.mpr rfl) noSocket (fun _ => .failed) [] _
    (noSocket_panics hk r.infoHash))
  have h4 := tsteps_trans h3 (add_pass _ r' rfl)
  refine ⟨_, h4, rfl, rfl, ?_, ?_⟩
  · intro j t hj hjk
    simp only [offered, List.getElem?_map] at hj
    rw [List.getElem?_set_ne (Ne.symm hjk), List.getElem?_set_ne (Ne.symm hjk), ← hts] at hj
    simp only [offered, List.getElem?_map, Trackers.init] at hj
    cases hb : builtinUrls[j]? with
    | none =>
      rw [hb] at hj
      cases hj
    | some v =>
      rw [hb] at hj
      cases hj
      rfl
  · intro T' hT'
    have hget : ∀ (l : List TrackerSys) (x : TrackerSys), l[k]? = some x → x.up = false → (offered r' l)[k]? = some x := by
      intro l x hl hx
      rw [offered_get r' hl, if_neg (by rw [hx]; simp)]
    refine ⟨_, down_steps hT' (hget _ _ (List.getElem?_set_self (by rw [List.length_set]; exact hlt)) rfl) rfl, ?_, ?_, rfl⟩
    · exact fun h => by cases h
    · intro h
      exact hne (List.mem_singleton.mp h).symm

/-- The full C73 is false in that the torrents being looked up are lost as well: the lookup of `r'` has been going on when that of `r` panics, and
never ends. -/
theorem C73_refuted_shared (r r' : Registered) {k : Nat} {u : TrackerUrl} (hk : builtinUrls[k]? = some u) :
    ∃ T, TSteps Trackers.init T ∧ T.added = [r, r'] ∧
      ∀ T', TSteps T T' → ∃ t, T'.trackers[k]? = some t ∧ t.spawned = [r, r'] ∧ t.answered = [] ∧ t.failed = [] ∧ t.pending = [] := by
  have hg := init_get hk
  have h1 := add_pass Trackers.init r rfl
  have hg1 := offered_get r hg
  generalize hts : offered r Trackers.init.trackers = ts at h1 hg1
  have h2 := tsteps_trans h1 (add_pass _ r' rfl)
  have hg2 := offered_get r' hg1
  simp only [] at h2
  generalize hts' : offered r' ts = ts' at h2 hg2
  have hlt : k < ts'.length := (List.getElem?_eq_some_iff.mp hg2).1
  have h3 := h2.tail (.spawn _ k _ r [r'] hg2 rfl rfl)
  have h4 := h3.tail (.spawn _ k _ r' [] (List.getElem?_set_self hlt) rfl rfl)
  have h5 := h4.tail (.crash _ k _ r (List.getElem?_set_self (by rw [List.length_set]; exact hlt)) rfl
    (List.mem_cons_self) noSocket (fun _ => .failed) [] _ (noSocket_panics hk r.infoHash))
  refine ⟨_, h5, rfl, ?_⟩
  intro T' hT'
  exact ⟨_, down_steps hT' (List.getElem?_set_self (by rw [List.length_set, List.length_set]; exact hlt)) rfl, rfl, rfl, rfl, rfl⟩

/-- What has failed stays so. -/
theorem failed_step {T T' : Trackers} (hs : TStep T T') {k : Nat} {t : TrackerSys} (hk : T.trackers[k]? = some t) (r : Registered)
    (hr : r ∈ t.failed) : ∃ t', T'.trackers[k]? = some t' ∧ r ∈ t'.failed := by
  have hset : ∀ (j : Nat) (x y : TrackerSys), T.trackers[j]? = some x → (∀ q ∈ x.failed, q ∈ y.failed) →
      ∃ t', (T.trackers.set j y)[k]? = some t' ∧ r ∈ t'.failed := by
    intro j x y hj hu
    by_cases e : j = k
    · subst e
      rw [hk] at hj
      cases hj
      exact ⟨y, List.getElem?_set_self (List.getElem?_eq_some_iff.mp hk).1, hu r hr⟩
    · exact ⟨t, by rw [List.getElem?_set_ne e, hk], hr⟩
  cases hs with
  | add q => exact ⟨t, hk, hr⟩
  | addFull q h => exact ⟨t, hk, hr⟩
  | pass q rest ts hm h =>
    have hlen : ∀ {l l' : List TrackerSys}, OfferAll q l l' → l.length = l'.length := by
      intro l l' ho
      induction ho with
      | nil => rfl
      | cons _ _ ih => rw [List.length_cons, List.length_cons, ih]
    have hlt : k < ts.length := by
      rw [← hlen h]
      exact (List.getElem?_eq_some_iff.mp hk).1
    obtain ⟨t0, h0, ho⟩ := offerAll_get h k _ (List.getElem?_eq_getElem hlt)
    rw [hk] at h0
    cases h0
    refine ⟨_, List.getElem?_eq_getElem hlt, ?_⟩
    generalize ts[k] = y at ho
    cases ho <;> exact hr
  | spawn j x q rest hj hu hm => exact hset j x _ hj (fun _ h => h)
  | answer j x pre post q hj hu hp udp http tcp peerId peers traffic h => exact hset j x _ hj (fun _ h => h)
  | fail j x pre post q hj hu hp udp http peerId e traffic h => exact hset j x _ hj (fun _ h => List.mem_append_left _ h)
  | crash j x q hj hu hp udp http peerId traffic h => exact hset j x _ hj (fun _ h => h)

theorem failed_steps {T T' : Trackers} (hs : TSteps T T') {k : Nat} {t : TrackerSys} (hk : T.trackers[k]? = some t) (r : Registered)
    (hr : r ∈ t.failed) : ∃ t', T'.trackers[k]? = some t' ∧ r ∈ t'.failed := by
  induction hs with
  | refl => exact ⟨t, hk, hr⟩
  | tail _ h ih =>
    obtain ⟨t1, h1, h2⟩ := ih
    exact failed_step h h1 r h2

/-- The full C73 is false in that a lookup that failed is not tried again: unless the torrent is added anew the tracker never answers for it. -/
theorem C73_refuted_retry (r : Registered) {k : Nat} {u : TrackerUrl} (hk : builtinUrls[k]? = some u) :
    ∃ T, TSteps Trackers.init T ∧ T.added = [r] ∧
      ∀ T' more, TSteps T T' → T'.added = T.added ++ more → r ∉ more →
        ∃ t, T'.trackers[k]? = some t ∧ t.spawned.count r = 1 ∧ r ∉ t.answered ∧ r ∉ t.pending := by
  have hg := init_get hk
  have h1 := add_pass Trackers.init r rfl
  have hg1 := offered_get r hg
  generalize hts : offered r Trackers.init.trackers = ts at h1 hg1
  have h2 := h1.tail (.spawn _ k _ r [] hg1 rfl rfl)
  have hlt : k < ts.length := (List.getElem?_eq_some_iff.mp hg1).1
  obtain ⟨e, traffic, hd⟩ := deaf_fails hk r.infoHash
  have h3 := h2.tail (.fail _ k _ [] [] r (List.getElem?_set_self hlt) rfl rfl deaf (fun _ => .failed) [] e traffic hd)
  refine ⟨_, h3, rfl, ?_⟩
  intro T' more hT' ha hr
  obtain ⟨t, ht, hf⟩ := failed_steps hT' (List.getElem?_set_self (by rw [List.length_set]; exact hlt)) r (List.mem_singleton.mpr rfl)
  obtain ⟨c1, c2, -, -⟩ := C73_at_most_once (tsteps_trans h3 hT') ht
  have c3 := c1.count_le r
  rw [ha] at c3
  have c4 : (Trackers.init.added ++ [r] ++ more).count r = 1 := by
    rw [List.count_append, List.count_eq_zero.mpr hr]
    simp [Trackers.init]
  have c5 : t.spawned.count r ≤ 1 := c4 ▸ c3
  have c6 := List.count_pos_iff.mpr hf
  have c7 := c2 r
  refine ⟨t, ht, by omega, ?_, ?_⟩
  · exact List.count_eq_zero.mp (by omega)
  · exact List.count_eq_zero.mp (by omega)

theorem add_list (T : Trackers) (l : List Registered) : TSteps T { T with mail := T.mail ++ l, added := T.added ++ l } := by
  induction l generalizing T with
  | nil =>
    rw [List.append_nil, List.append_nil]
    exact .refl T
  | cons r l ih =>
    have h := tsteps_trans ((TSteps.refl T).tail (.add T r)) (ih _)
    simp only [List.append_assoc, List.singleton_append] at h
    exact h

/-- The full C73 is false in that a torrent is forgotten if sixteen others are waiting: it is looked up nowhere unless it is added again. -/
theorem C73_refuted_full (l : List Registered) (r : Registered) (hl : l.length = 16) (hr : r ∉ l) :
    ∃ T, TSteps Trackers.init T ∧ T.added = l ++ [r] ∧
      ∀ T' more, TSteps T T' → T'.added = T.added ++ more → r ∉ more → ∀ t ∈ T'.trackers, r ∉ t.spawned := by
  have h1 := (add_list Trackers.init l).tail (.addFull _ r (by
    show 16 ≤ ([] ++ l).length
    rw [List.nil_append, hl]
    exact Nat.le_refl _))
  refine ⟨_, h1, rfl, ?_⟩
  intro T' more hT' ha hrm t ht
  have hm : r ∉ ([] : List Registered) ++ l := hr
  rcases gone_steps hT' r hm (by
    intro t ht
    obtain ⟨u, -, rfl⟩ := List.mem_map.mp ht
    exact ⟨(fun h => by cases h), (fun h => by cases h)⟩) with h | ⟨more', e, hin⟩
  · exact (h.2 t ht).2
  · rw [ha] at e
    rw [List.append_cancel_left e] at hrm
    exact absurd hin hrm

/-- With fewer than sixteen torrents no mailbox gets full. -/
theorem calm_of_few {T : Trackers} (h : TSteps Trackers.init T) (hn : T.added.length < 16) : CalmSteps Trackers.init T := by
  generalize hI : Trackers.init = I at h
  induction h with
  | refl => exact .refl _
  | tail hp hs ih =>
    subst hI
    obtain ⟨m, e⟩ := added_step hs
    rw [e, List.length_append] at hn
    have hi := tinv_steps hp tinv_init
    have h1 := hi.sub.length_le
    rw [List.length_append] at h1
    refine .tail (ih (by omega)) ⟨by omega, ?_⟩ hs
    intro t ht
    have h2 := (hi.each t ht).sub.length_le
    rw [List.length_append] at h2
    omega

/-! ### The trackers themselves -/

/-- C73: the trackers are those listed in src/actors/trackers_interface.rs:13-30, each with a host and a port that make up its address; they
are eighteen different IPv4 addresses with ports. -/
theorem C73_trackers : Trackers.init.trackers.map (fun t => t.url.asStr) =
      [b!"udp://93.158.213.92:1337/announce", b!"udp://102.223.180.235:6969/announce", b!"udp://23.134.88.6:1337/announce",
        b!"udp://193.189.100.187:6969/announce", b!"udp://185.243.218.213:80/announce", b!"udp://91.216.110.52:451/announce",
        b!"udp://208.83.20.20:6969/announce", b!"udp://23.157.120.14:6969/announce", b!"udp://156.234.201.18:80/announce",
        b!"udp://185.102.219.163:6969/announce", b!"udp://185.50.159.149:6969/announce", b!"udp://209.141.59.16:6969/announce",
        b!"udp://38.7.201.142:6969/announce", b!"udp://73.170.204.100:6969/announce", b!"udp://176.31.250.174:6969/announce",
        b!"udp://82.156.24.219:6969/announce", b!"udp://83.102.180.21:80/announce", b!"udp://185.230.4.150:1337/announce"] ∧
    (∀ t ∈ Trackers.init.trackers, t.url.scheme = b!"udp" ∧ ∃ host port a, t.url.hostStr = some host ∧ t.url.port = some port ∧
      t.url.asStr = b!"udp://" ++ host ++ b!":" ++ decimal port ++ b!"/announce" ∧ parseSocketV4 (host ++ b!":" ++ decimal port) = some a) ∧
    (Trackers.init.trackers.map fun t => (t.url.hostStr, t.url.port)).Nodup := by
  refine ⟨by decide +kernel, fun t ht => ?_, by decide +kernel⟩
  obtain ⟨u, hu, rfl⟩ := List.mem_map.mp ht
  obtain ⟨⟨h, p⟩, hm, rfl⟩ := List.mem_map.mp hu
  have hall : ∀ x ∈ builtinTrackers, (parseSocketV4 (x.1 ++ b!":" ++ decimal x.2)).isSome = true := by decide +kernel
  obtain ⟨a, ha⟩ := Option.isSome_iff_exists.mp (hall _ hm)
  refine ⟨rfl, h, p, a, rfl, rfl, ?_, ha⟩
  show _ ++ _ ++ _ = _
  simp

/-! ### Non-vacuity -/

/-- Seventeen different torrents. -/
example : ((List.range 16).map (fun i => (⟨b!"h", i⟩ : Registered))).length = 16 ∧
    (⟨b!"h", 16⟩ : Registered) ∉ (List.range 16).map (fun i => (⟨b!"h", i⟩ : Registered)) := by decide +kernel

/-- The first tracker answers with two peers, of which the second can be reached: the torrent is told of this one. -/
example : ∃ T, TSteps Trackers.init T ∧ T.found = [(7, ⟨b!"1.2.3.4", 80⟩)] ∧ T.log.length = 1 ∧ CalmSteps Trackers.init T ∧ T.added.length ≤ 16 ∧
    ∃ t, T.trackers[0]? = some t ∧ t.up = true ∧ t.spawned = T.added ∧ t.answered = T.added := by
  have hk : builtinUrls[0]? = some ⟨b!"udp", some b!"93.158.213.92", some 1337, b!"udp://93.158.213.92:1337/announce"⟩ := by decide +kernel
  have hg := init_get hk
  have h1 := add_pass Trackers.init ⟨b!"h", 7⟩ rfl
  have hg1 := offered_get ⟨b!"h", 7⟩ hg
  generalize offered ⟨b!"h", 7⟩ Trackers.init.trackers = ts at h1 hg1
  have h2 := h1.tail (.spawn _ 0 _ _ [] hg1 rfl rfl)
  have hlt : 0 < ts.length := (List.getElem?_eq_some_iff.mp hg1).1
  have hans : (getPeersByTracker (answers (List.replicate 16 0) (List.replicate 20 0 ++ [(⟨10, 0, 0, 255, 6881⟩ : Addr), ⟨1, 2, 3, 4, 80⟩].flatMap Addr.compact))
    (fun _ => .failed) [] ⟨b!"udp", some b!"93.158.213.92", some 1337, b!"udp://93.158.213.92:1337/announce"⟩ b!"h").1 =
      .ok [⟨b!"10.0.0.255", 6881⟩, ⟨b!"1.2.3.4", 80⟩] := by decide +kernel
  generalize answers _ _ = net at hans
  have h3 := h2.tail (.answer _ 0 _ [] [] _ (List.getElem?_set_self hlt) rfl rfl net (fun _ => .failed) (fun _ a => a = ([1, 2, 3, 4], 80)) [] _ _
    (Prod.ext hans rfl))
  exact ⟨_, h3, rfl, rfl, calm_of_few h3 (Nat.le_of_ble_eq_true rfl), Nat.le_of_ble_eq_true rfl, _, List.getElem?_set_self (by rw [List.length_set]; exact hlt), rfl, rfl, rfl⟩

end RustBit
