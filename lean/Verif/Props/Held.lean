/-
Property C109: what a torrent keeps in memory is bounded.
-/
import Verif.Props.Finish
import Verif.Props.Torrents
import Verif.Props.LookupEnds
import Verif.Spec.Held

namespace RustBit
open Spec

/-! ### Pieces -/

theorem reported_sublist (l : List Mail) :
    ((l.filterMap reported).map (fun x => x.1)).Sublist (reports l) := by
  induction l with
  | nil => exact .refl _
  | cons m l ih =>
    cases m with
    | found p => exact ih
    | success e pc i => exact ih.cons_cons i
    | failed e i => exact ih.cons i

theorem held_sublist (s : Sys) : ((held s).map (fun x => x.1)).Sublist (waiting s ++ flight s ++ handed s ++ s.lost) := by
  have h1 : ((held s).map (fun x => x.1)).Sublist (flight s ++ handed s) := by
    rw [held, List.map_append]
    refine List.Sublist.append ((reported_sublist _).trans (List.sublist_append_right _ _)) ?_
    rw [handed, List.map_append, List.map_map]
    exact List.sublist_append_right _ _
  refine h1.trans ?_
  rw [List.append_assoc (waiting s)]
  exact (List.sublist_append_right _ _).trans (List.sublist_append_left _ _)

/-- C109, exactly once: no piece is in memory twice, and there are no others than those the torrent has. -/
theorem C109_once {w : World} {s : Sys} {info : Info} (hr : Among w s) (hi : s.torrent.info = some info) :
    ((held s).map (fun x => x.1)).Nodup ∧ (∀ x ∈ held s, x.1 < wrappedCount info) ∧ (held s).length ≤ wrappedCount info := by
  have hp := (C40_exact hr hi).1
  have hs := held_sublist s
  refine ⟨hs.nodup (hp.nodup_iff.mpr List.nodup_range), fun x hx => ?_, ?_⟩
  · exact List.mem_range.mp (hp.mem_iff.mp (hs.subset (List.mem_map_of_mem hx)))
  · have := hs.length_le
    rw [hp.length_eq, List.length_range, List.length_map] at this
    exact this

/-- C109: nothing is in memory while there is no metadata. -/
theorem C109_none {w : World} {s : Sys} (hr : Among w s) (hi : s.torrent.info = none) : held s = [] := by
  have h := C40_before hr hi
  have := held_sublist s
  rw [h.1, h.2.1, h.2.2.1, h.2.2.2] at this
  exact List.map_eq_nil_iff.mp (List.sublist_nil.mp this)

theorem sum_sublist {f : Nat → Nat} {a b : List Nat} (h : a.Sublist b) : (a.map f).sum ≤ (b.map f).sum := by
  induction h with
  | slnil => exact Nat.le_refl _
  | cons x _ ih => simp only [List.map_cons, List.sum_cons]; omega
  | cons_cons x _ ih => simp only [List.map_cons, List.sum_cons]; omega

theorem sum_perm {f : Nat → Nat} {a b : List Nat} (h : a.Perm b) : (a.map f).sum = (b.map f).sum := by
  induction h with
  | nil => rfl
  | cons x _ ih => simp only [List.map_cons, List.sum_cons]; omega
  | swap x y l => simp only [List.map_cons, List.sum_cons]; omega
  | trans _ _ ih1 ih2 => exact ih1.trans ih2

theorem sum_pieces (d : Bytes) (pl k : Nat) : ((List.range k).map fun i => (piece d pl i).length).sum = min (k * pl) d.length := by
  induction k with
  | zero => simp
  | succ k ih =>
    rw [List.range_succ, List.map_append, List.sum_append, ih]
    simp only [List.map_cons, List.map_nil, List.sum_cons, List.sum_nil, piece, List.length_take, List.length_drop, Nat.succ_mul]
    omega

/-- A piece with the right hash is the published one, or a collision. -/
theorem hasHash_right {w : World} {info : Info} {d : Bytes} (hd : Describes w.sha info d) {i : Nat} {pc : Bytes} (h : HasHash w info i pc)
    (hi : i < pieceCount d.length info.pieceLength) : pc = piece d info.pieceLength i ∨ Collision w.sha pc (piece d info.pieceLength i) := by
  by_cases he : pc = piece d info.pieceLength i
  · exact .inl he
  · refine .inr ⟨he, ?_⟩
    rw [h.2, ← hd.hashes i hi, Nat.mul_comm]

theorem held_hash {w : World} {s : Sys} {info : Info} {n : Nat} (h : Known w info n s) : ∀ x ∈ held s, HasHash w info x.1 x.2 := by
  intro x hx
  rcases List.mem_append.mp hx with hx | hx
  · obtain ⟨m, hm, e⟩ := List.mem_filterMap.mp hx
    cases m with
    | found p => cases e
    | success e' pc i => cases e; exact (h.mail _ hm).2
    | failed e' i => cases e
  · obtain ⟨r, hr, rfl⟩ := List.mem_map.mp hx
    exact (h.ready r (List.mem_append_right _ hr)).1

/-- C109: the pieces in memory have no more bytes than the torrent, whatever peers send and however slow the disk is (or a collision has been exhibited).
Missing: a bound that is the same for all torrents, see `C109_refuted`. -/
theorem C109_bytes_partial {w : World} {s : Sys} {info : Info} {d : Bytes} (hr : Among w s) (hi : s.torrent.info = some info) (hd : Describes w.sha info d)
    (h64 : d.length < 2 ^ 64) : (∃ x ∈ held s, Collision w.sha x.2 (piece d info.pieceLength x.1)) ∨ heldBytes s ≤ d.length := by
  obtain ⟨n, h⟩ := among_known hr hi
  have hn := known_count h hd h64
  have hs := held_sublist s
  have hp := h.perm
  by_cases hc : ∃ x ∈ held s, Collision w.sha x.2 (piece d info.pieceLength x.1)
  · exact .inl hc
  · right
    have hx : ∀ x ∈ held s, x.2 = piece d info.pieceLength x.1 := fun x hx =>
      (hasHash_right hd (held_hash h x hx) (by
        rw [← hn]
        exact List.mem_range.mp (hp.mem_iff.mp (hs.subset (List.mem_map_of_mem hx))))).resolve_right fun e => hc ⟨x, hx, e⟩
    have e1 : heldBytes s = (((held s).map (fun x => x.1)).map fun i => (piece d info.pieceLength i).length).sum := by
      rw [heldBytes, List.map_map]
      congr 1
      exact List.map_congr_left fun x hx' => by simp [hx x hx']
    rw [e1]
    refine Nat.le_trans (sum_sublist hs) ?_
    rw [sum_perm hp, sum_pieces]
    exact Nat.min_le_right _ _

/-- From every state of a started torrent with nothing written and no dead worker, all pieces can get into memory. -/
theorem fill_memory {w : World} {info : Info} {d infoHash : Bytes} {fs : FS} {s : Sys} (hsha : ∀ b, (w.sha b).length = 20)
    (hd : Describes w.sha info d) (hfit : Fits info d) (hst : Steps w (Sys.init infoHash fs) s) (hi : s.torrent.info = some info)
    (hs : s.torrent.initiated = true) (hl : s.lost = []) (hw : s.written = [])
    (hg : AllGood (fun i pc => pc = piece d info.pieceLength i) s) :
    ∃ t, Steps w s t ∧ t.written = [] ∧ t.torrent.info = some info ∧
      ((held t).map fun x => x.1).Perm (List.range (pieceCount d.length info.pieceLength)) ∧ heldBytes t = d.length := by
  obtain ⟨n, h⟩ := among_known (among_of hst) hi
  have hn := known_count h hd hfit.length
  obtain ⟨t, h1, h2, h3, h4, -, h5, hgood⟩ := work_steps (w := w) (info := info) (n := n) (fun i pc => pc = piece d info.pieceLength i)
    (by rw [hn]; exact serve_of hsha hd hfit) _ s rfl h hs (by rw [hl]; decide)
  have ht := known_steps h h1
  rw [hw] at h5
  have hwait : waiting t = [] := by
    by_cases hw : waiting t = []
    · exact hw
    · have := ht.full h4 hw
      rw [h2, h3, hl] at this
      simp at this
  have hp := ht.perm
  rw [hwait, h2, h3, hl, handed, h5, hn] at hp
  simp only [List.nil_append, List.append_nil] at hp
  have hrep : reports t.mail = [] := by
    simp only [flight, List.append_eq_nil_iff] at h2
    exact h2.2
  have hm : t.mail.filterMap reported = [] := by
    have := reported_sublist t.mail
    rw [hrep] at this
    exact List.map_eq_nil_iff.mp (List.sublist_nil.mp this)
  have he : held t = t.ready.map fun r => (r.idx, r.piece) := by rw [held, hm, List.nil_append]
  have hf : (held t).map (fun x => x.1) = t.ready.map Ready.idx := by rw [he, List.map_map]; rfl
  refine ⟨t, h1, h5, ht.hasInfo, by rw [hf]; exact hp, ?_⟩
  have hx := (hgood hg).2
  have e1 : heldBytes t = ((t.ready.map Ready.idx).map fun i => (piece d info.pieceLength i).length).sum := by
    rw [heldBytes, he, List.map_map, List.map_map]
    congr 1
    exact List.map_congr_left fun r hr => by simp [hx r (List.mem_append_right _ hr)]
  rw [e1, sum_perm hp, sum_pieces]
  refine Nat.min_eq_right ?_
  have := Nat.div_add_mod (d.length + info.pieceLength - 1) info.pieceLength
  have := Nat.mod_lt (d.length + info.pieceLength - 1) hd.pieceLength
  rw [pieceCount, Nat.mul_comm]
  have := hd.pieceLength
  omega

/-- C109 refuted, for every torrent: if the disk is slow all of it gets into memory before the first byte is written. -/
theorem C109_refuted {w : World} {info : Info} {d infoHash : Bytes} (hsha : ∀ b, (w.sha b).length = 20) (hlen : 2 < infoHash.length)
    (hd : Describes w.sha info d) (hfit : Fits info d) (hpos : 0 < d.length) (ht : Typed info) :
    ∃ s, Reachable w s ∧ s.torrent.info = some info ∧ s.written = [] ∧
      ((held s).map fun x => x.1).Perm (List.range (pieceCount d.length info.pieceLength)) ∧ heldBytes s = d.length := by
  have hn : (pieceTotal w.build info : Res Unit Nat) = .ok (pieceCount d.length info.pieceLength) := pieceTotal_of hd hfit.length hpos
  have hcount : 0 < pieceCount d.length info.pieceLength := Nat.div_pos (by have := hd.pieceLength; omega) hd.pieceLength
  have hst := run_started (w := w) hlen ht hn hcount
  obtain ⟨t, h1, h2, h3, h4, h5⟩ := fill_memory hsha hd hfit hst rfl rfl rfl rfl ⟨fun e p i hx => (by cases hx), fun r hr => (by cases hr)⟩
  exact ⟨t, ⟨_, _, hst.trans h1⟩, h3, h2, h4, h5⟩

/-! ### Torrents of any size -/

theorem flatMap_block {α : Type} (f : α → Bytes) (n : Nat) (hf : ∀ a, (f a).length = n) :
    ∀ (l : List α) (k : Nat) (a : α), l[k]? = some a → ((l.flatMap f).drop (n * k)).take n = f a := by
  intro l
  induction l with
  | nil => intro k a h; simp at h
  | cons b l ih =>
    intro k a h
    cases k with
    | zero =>
      simp only [List.getElem?_cons_zero, Option.some.injEq] at h
      subst h
      rw [Nat.mul_zero, List.drop_zero, List.flatMap_cons, ← hf b, List.take_left]
    | succ k =>
      rw [List.getElem?_cons_succ] at h
      rw [List.flatMap_cons, List.drop_append, List.drop_of_length_le (by rw [hf, Nat.mul_succ]; omega), List.nil_append, hf,
        show n * (k + 1) - n = n * k by rw [Nat.mul_succ]; omega]
      exact ih k a h

/-- Metadata for a single file. -/
def publish (sha : Bytes → Bytes) (pl : Nat) (d : Bytes) : Info :=
  ⟨none, some d.length, b!"a", pl, (List.range (pieceCount d.length pl)).flatMap fun k => sha (piece d pl k)⟩

theorem publish_describes {sha : Bytes → Bytes} (hsha : ∀ b, (sha b).length = 20) {pl : Nat} (hpl : 0 < pl) (d : Bytes) :
    Describes sha (publish sha pl d) d where
  total := by simp [publish, listedFiles, total]
  pieceLength := hpl
  hashes k hk := flatMap_block (fun k => sha (piece d pl k)) 20 (fun _ => hsha _) _ k k (List.getElem?_range hk)

/-- C109 refuted, for every bound (below 2^32): there is a torrent that keeps more bytes than this, and more pieces, in memory at once. -/
theorem C109_refuted_any {w : World} (hsha : ∀ b, (w.sha b).length = 20) {B : Nat} (hB : B < 2 ^ 32) (hpos : 0 < B) :
    ∃ s, Reachable w s ∧ heldBytes s = B ∧ (held s).length = B := by
  obtain ⟨s, h1, -, -, h2, h3⟩ := C109_refuted (w := w) (infoHash := List.replicate 20 7) hsha (by decide)
    (publish_describes hsha (pl := 1) (by decide) (List.replicate B 0))
    ⟨by rw [List.length_replicate]; omega, by simp [publish, pieceCount]; omega, by simp [publish, pieceCount]; omega⟩ (by simpa using hpos)
    ⟨by show validUtf8 b!"a" = true; decide +kernel, by show 1 < 2 ^ 64; decide, by intro n h; simp [publish] at h; omega, by intro fs h; cases h⟩
  refine ⟨s, h1, by simpa using h3, ?_⟩
  have := h2.length_eq
  simpa [publish, pieceCount] using this

example : ∃ B : Nat, B < 2 ^ 32 ∧ 0 < B ∧ 10 ^ 9 < B := ⟨2 ^ 31, by decide⟩

/-! ### Requests and peers -/

/-- C109 in the whole program: what each torrent has in memory, apart from the pieces, does not depend on peers: at most five requests. -/
theorem C109_requests {w : World} {Q : Info → Prop} {fs : FS} {n : Nat} {A : App} (h : ASteps w Q (App.init fs n) A) {s : Slot} (hs : s ∈ A.proc.slots) :
    (s.sys.queue ++ s.sys.busy).length ≤ 5 :=
  (C41_at_most_five (C84_among h hs)).2

theorem reached_length {tcp : Nat → List Nat × Nat → Bool} {k : Nat} {ps qs : List PeerEndpoint} (h : Reached tcp k ps qs) : qs.length ≤ ps.length := by
  induction h with
  | nil => exact Nat.le_refl _
  | yes _ _ _ ih => simp only [List.length_cons]; omega
  | no _ _ _ ih => simp only [List.length_cons]; omega

theorem told_length {log : List Exchange} {found : List (Nat × PeerEndpoint)} (h : Told log found) (hg : ∀ e ∈ log, e.peers.length ≤ 663) (k : Nat) :
    (messagesTo k found).length ≤ 663 * (log.filter fun e => e.about.torrent == k).length := by
  induction h with
  | nil => simp [messagesTo]
  | snoc h e qs hr ih =>
    have h1 := ih (fun x hx => hg x (List.mem_append_left _ hx))
    have h2 := reached_length hr
    have h3 := hg e (by simp)
    have e1 : (messagesTo k (List.map (fun p => (e.about.torrent, p)) qs)).length ≤ if e.about.torrent == k then qs.length else 0 := by
      simp only [messagesTo, List.filter_map, List.length_map]
      split
      · exact List.length_filter_le _ _
      · rename_i hx
        rw [List.filter_eq_nil_iff.mpr (by intro p _; simpa using hx)]
        simp
    have e2 : ∀ a b, messagesTo k (a ++ b) = messagesTo k a ++ messagesTo k b := by simp [messagesTo]
    rw [e2, List.length_append, List.filter_append, List.length_append]
    cases hb : e.about.torrent == k with
    | false =>
      rw [hb] at e1
      simp only [Bool.false_eq_true, if_false] at e1
      omega
    | true =>
      rw [hb] at e1
      simp only [if_true] at e1
      simp only [List.filter_cons, hb, if_true, List.filter_nil, List.length_singleton]
      omega

theorem genuine_peers {e : Exchange} (h : Genuine e) : e.peers.length ≤ 663 ∧ e.tracker < 18 := by
  obtain ⟨u, udp, http, peerId, hu, hp⟩ := h
  refine ⟨udp_peers udp http peerId u _ _ (C65_builtin u (List.mem_of_getElem? hu)).1 hp, ?_⟩
  exact (List.getElem?_eq_some_iff.mp hu).1

/-- A list in which each class has at most one member has at most as many members as there are classes. -/
theorem length_classes {α : Type} (f : α → Nat) : ∀ (n : Nat) (l : List α), (∀ x ∈ l, f x < n) → (∀ j, (l.filter fun x => f x == j).length ≤ 1) → l.length ≤ n := by
  intro n
  induction n with
  | zero =>
    intro l h _
    cases l with
    | nil => exact Nat.le_refl _
    | cons x l => exact absurd (h x (by simp)) (Nat.not_lt_zero _)
  | succ n ih =>
    intro l h1 h2
    have h3 := ih (l.filter fun x => !(f x == n)) (fun x hx => by
      obtain ⟨hx, hne⟩ := List.mem_filter.mp hx
      have := h1 x hx
      simp at hne
      omega) (fun j => by
      rw [List.filter_filter]
      refine Nat.le_trans ?_ (h2 j)
      refine List.Sublist.length_le ?_
      have : (l.filter fun x => (f x == j) && !(f x == n)) = ((l.filter fun x => f x == j).filter fun x => !(f x == n)) := by
        rw [List.filter_filter]
        exact List.filter_congr fun x _ => Bool.and_comm _ _
      rw [this]
      exact List.filter_sublist)
    have h4 := h2 n
    have h5 : l.length = (l.filter fun x => f x == n).length + (l.filter fun x => !(f x == n)).length := by
      clear h1 h2 h3 h4
      induction l with
      | nil => rfl
      | cons x l ih =>
        simp only [List.filter_cons]
        cases f x == n <;> simp <;> omega
    omega

theorem added_once {A : App} (hi : AInv A) {r r' : Registered} (h : r ∈ A.trackers.added) (h' : r' ∈ A.trackers.added) (he : r.torrent = r'.torrent) : r = r' := by
  obtain ⟨i, hx⟩ := List.getElem?_of_mem h
  obtain ⟨j, hy⟩ := List.getElem?_of_mem h'
  have e1 := hi.added i
  have e2 := hi.added j
  rw [hx] at e1
  rw [hy] at e2
  cases hs : A.proc.slots[i]? with
  | none => rw [hs] at e1; cases e1
  | some s =>
    cases hs' : A.proc.slots[j]? with
    | none => rw [hs'] at e2; cases e2
    | some s' =>
      rw [hs, Option.map_some, Option.some.injEq] at e1
      rw [hs', Option.map_some, Option.some.injEq] at e2
      have : i = j := by rw [e1, e2] at he; exact he
      subst this
      rw [hx] at hy
      exact Option.some.inj hy

theorem added_nodup {A : App} (hi : AInv A) : A.trackers.added.Nodup := by
  refine List.pairwise_iff_getElem.mpr fun i j hi' hj hij he => ?_
  replace he : A.trackers.added[i]? = A.trackers.added[j]? := by rw [List.getElem?_eq_getElem hi', List.getElem?_eq_getElem hj, he]
  have e1 := hi.added i
  have e2 := hi.added j
  rw [he, e2] at e1
  cases hs : A.proc.slots[j]? with
  | none =>
    rw [hs] at e2
    rw [List.getElem?_eq_getElem hj] at e2
    cases e2
  | some s' =>
    rw [hs] at e1
    cases hs' : A.proc.slots[i]? with
    | none => rw [hs'] at e1; cases e1
    | some s =>
      rw [hs'] at e1
      simp only [Option.map_some, Option.some.injEq, Registered.mk.injEq] at e1
      omega

theorem answered_once {A : App} (hi : AInv A) {spawned answered : List Registered} (h1 : spawned.Sublist A.trackers.added)
    (h2 : ∀ r, answered.count r ≤ spawned.count r) (k : Nat) : (answered.filter fun r => r.torrent == k).length ≤ 1 := by
  cases hf : answered.filter fun r => r.torrent == k with
  | nil => simp
  | cons r0 l =>
    have hmem : ∀ r ∈ answered, r ∈ A.trackers.added := fun r hr => h1.subset (List.count_pos_iff.mp (by
      have := h2 r
      have := List.count_pos_iff.mpr hr
      omega))
    have hr0 := List.mem_filter.mp (by rw [hf]; exact List.mem_cons_self .. : r0 ∈ answered.filter fun r => r.torrent == k)
    have hall : ∀ r ∈ r0 :: l, r0 = r := by
      intro r hr
      rw [← hf] at hr
      obtain ⟨hr1, hr2⟩ := List.mem_filter.mp hr
      refine added_once hi (hmem _ hr0.1) (hmem _ hr1) ?_
      have := hr0.2
      simp at this hr2
      omega
    have hc : (r0 :: l).count r0 = (r0 :: l).length := List.count_eq_length.mpr hall
    rw [← hc, ← hf]
    have h3 := List.Sublist.count_le r0 (List.filter_sublist (l := answered) (p := fun r => r.torrent == k))
    have h4 := h2 r0
    have h5 := h1.count_le r0
    have h6 := List.nodup_iff_count.mp (added_nodup hi) r0
    omega

/-- C109 for peers, in the whole program: whatever the trackers answer, a torrent is told of at most 663 peers by each of the 18 trackers, and it keeps no
others. -/
theorem C109_peers {w : World} {Q : Info → Prop} {fs : FS} {n : Nat} {A : App} (h : ASteps w Q (App.init fs n) A) {s : Slot} (hs : s ∈ A.proc.slots) :
    s.sys.torrent.peers.length ≤ s.sys.told.length ∧ s.sys.told.length ≤ 18 * 663 := by
  obtain ⟨k, hk⟩ := List.getElem?_of_mem hs
  have hi := ainv_steps h (ainv_init fs n)
  constructor
  · rw [C84_counters h hs]
    have : ∀ l : List Mail, (peersAfter l).length = (l.filterMap fun m => match m with | .found p => some p | _ => none).length := by
      intro l
      induction l with
      | nil => rfl
      | cons m l ih => cases m <;> simp [peersAfter, ih]
    have e : s.sys.told.length = (peersAfter s.sys.handled).length + (peersAfter s.sys.mail).length := by
      rw [this, this, Sys.told, List.filterMap_append, List.length_append]
      rfl
    omega
  · rw [hi.told k s hk]
    have hl := tinv_steps hi.trackers tinv_init
    have h1 : (messagesTo k (A.trackers.found.take A.delivered)).length ≤ (messagesTo k A.trackers.found).length := by
      simp only [messagesTo, List.length_map]
      exact ((List.take_sublist _ _).filter _).length_le
    have h2 := told_length hl.told (fun e he => (genuine_peers (hl.genuine e he)).1) k
    have h3 : (A.trackers.log.filter fun e => e.about.torrent == k).length ≤ 18 := by
      refine length_classes Exchange.tracker 18 _ (fun e he => (genuine_peers (hl.genuine e (List.mem_filter.mp he).1)).2) fun j => ?_
      by_cases hj : j < A.trackers.trackers.length
      · obtain ⟨c1, c2, -, c4⟩ := C73_at_most_once hi.trackers (List.getElem?_eq_getElem hj)
        have hadd := hi.added k
        have hcount : ((A.trackers.log.filter fun e => e.tracker == j).filter fun e => e.about.torrent == k).length ≤ 1 := by
          have e1 : ((A.trackers.log.filter fun e => e.tracker == j).filter fun e => e.about.torrent == k).length =
              ((A.trackers.trackers[j]).answered.filter fun r => r.torrent == k).length := by
            rw [c4, List.filter_map, List.length_map]
            rfl
          rw [e1]
          exact answered_once hi c1 (fun r => by have := c2 r; omega) k
        rw [List.filter_filter] at hcount ⊢
        simpa [Bool.and_comm] using hcount
      · rw [List.filter_eq_nil_iff.mpr]
        · simp
        · intro e he
          have := (genuine_peers (hl.genuine e (List.mem_filter.mp he).1)).2
          have hlen : A.trackers.trackers.length = builtinUrls.length := by rw [← hl.urls, List.length_map]
          have : builtinUrls.length = 18 := rfl
          simp
          omega
    omega

/-- Non-vacuity: a torrent that has been told of peers. -/
example (w : World) (hsha : ∀ b, (w.sha b).length = 20) : ∃ Q A s, ASteps w Q (App.init (fun _ => none) 1) A ∧ s ∈ A.proc.slots ∧ s.sys.torrent.peers ≠ [] := by
  obtain ⟨A, s, h1, h2, h3, -⟩ := program_done w hsha
  obtain ⟨n, hk⟩ := among_known (C84_among h1 h2) h3
  exact ⟨_, A, s, h1, h2, hk.nonempty⟩

/-- C109 for pieces, in the whole program: each torrent has no more bytes in memory than it has in all. Missing: as in `C109_bytes_partial`. -/
theorem C109_program_partial {w : World} {Q : Info → Prop} {fs : FS} {n : Nat} {A : App} (h : ASteps w Q (App.init fs n) A) {s : Slot} (hs : s ∈ A.proc.slots)
    {info : Info} {d : Bytes} (hi : s.sys.torrent.info = some info) (hd : Describes w.sha info d) (h64 : d.length < 2 ^ 64) :
    (∃ x ∈ held s.sys, Collision w.sha x.2 (piece d info.pieceLength x.1)) ∨ heldBytes s.sys ≤ d.length :=
  C109_bytes_partial (C84_among h hs) hi hd h64

end RustBit
