/-
Invariants of the actors of a torrent.
-/
import Verif.Spec.Actors
import Verif.Props.Download
import Verif.Props.Tracker
import Verif.Props.Info

namespace RustBit
open Spec

theorem fill_eq (k : Nat) : ∀ (i : Nat) (q : PiecePool), PiecePool.fill i k q = q ++ List.range' i k := by
  induction k with
  | zero => intro i q; simp [PiecePool.fill]
  | succ k ih => intro i q; rw [PiecePool.fill, ih, List.range'_succ]; simp

theorem pool_new (n : Nat) : PiecePool.new n = List.range n := by
  rw [PiecePool.new, fill_eq, List.range_eq_range']; simp

theorem reports_append (a b : List Mail) : reports (a ++ b) = reports a ++ reports b := by
  simp [reports, List.filterMap_append]

@[simp] theorem reports_found (p : PeerEndpoint) (l : List Mail) : reports (.found p :: l) = reports l := rfl
@[simp] theorem reports_success (e p : Bytes) (i : Nat) (l : List Mail) : reports (.success e p i :: l) = i :: reports l := rfl
@[simp] theorem reports_failed (e : Bytes) (i : Nat) (l : List Mail) : reports (.failed e i :: l) = i :: reports l := rfl
@[simp] theorem reports_nil : reports [] = [] := rfl

/-- The endpoint parses. -/
def Parses (e : Bytes) : Prop := ∃ a, parseSocketV4 e = some a

theorem fromBytes_parses {bytes : Bytes} {p : PeerEndpoint} (h : p ∈ PeerEndpoint.fromBytes bytes) : Parses p.endpoint := by
  obtain ⟨xs, rest, rfl, hr, hp⟩ := exists_compact bytes
  rw [fromBytes_compact xs rest hp hr] at h
  obtain ⟨x, hx, rfl⟩ := List.mem_map.mp h
  exact ⟨_, parse_epOf x (hp x hx)⟩

/-! ### find_suitable_peer -/

theorem findSuitablePeer_ok {ε : Type} {l : List TPeer} (h : l ≠ []) :
    ∃ p ∈ l, (TPeer.findSuitablePeer l : Res ε Bytes) = .ok p.endpoint ∧ ((∃ q ∈ l, q.failed < 2) → p.failed < 2) ∧
      ((∃ q ∈ l, q.failed < 4) → p.failed < 4) := by
  unfold TPeer.findSuitablePeer
  cases h2 : l.find? (fun p => p.failed < 2) with
  | some p =>
    have := List.find?_some h2
    simp only [decide_eq_true_eq] at this
    exact ⟨p, List.mem_of_find?_eq_some h2, rfl, fun _ => this, fun _ => by omega⟩
  | none =>
    have n2 : ¬ ∃ q ∈ l, q.failed < 2 := by
      rintro ⟨q, hq, hf⟩
      have := List.find?_eq_none.mp h2 q hq
      simp at this; omega
    simp only []
    cases h4 : l.find? (fun p => p.failed < 4) with
    | some p =>
      have := List.find?_some h4
      simp only [decide_eq_true_eq] at this
      exact ⟨p, List.mem_of_find?_eq_some h4, rfl, fun h => absurd h n2, fun _ => this⟩
    | none =>
      have n4 : ¬ ∃ q ∈ l, q.failed < 4 := by
        rintro ⟨q, hq, hf⟩
        have := List.find?_eq_none.mp h4 q hq
        simp at this; omega
      match l, h with
      | p :: t, _ => exact ⟨p, by simp, rfl, fun h => absurd h n2, fun h => absurd h n4⟩

theorem updateFailed_endpoints (l : List TPeer) (e : Bytes) : (TPeer.updateFailed l e).map TPeer.endpoint = l.map TPeer.endpoint := by
  unfold TPeer.updateFailed
  rw [List.map_map]
  apply List.map_congr_left
  intro p _
  simp only [Function.comp]
  split <;> rfl

theorem updateSuccess_endpoints (l : List TPeer) (e : Bytes) : (TPeer.updateSuccess l e).map TPeer.endpoint = l.map TPeer.endpoint := by
  unfold TPeer.updateSuccess
  rw [List.map_map]
  apply List.map_congr_left
  intro p _
  simp only [Function.comp]
  split <;> rfl

theorem parses_of_endpoints {l l' : List TPeer} (h : l'.map TPeer.endpoint = l.map TPeer.endpoint) (hp : ∀ p ∈ l, Parses p.endpoint) :
    ∀ p ∈ l', Parses p.endpoint := by
  intro p hp'
  have : p.endpoint ∈ l'.map TPeer.endpoint := List.mem_map.mpr ⟨p, hp', rfl⟩
  rw [h] at this
  obtain ⟨q, hq, e⟩ := List.mem_map.mp this
  rw [← e]
  exact hp q hq

/-! ### The first requests -/

/-- The requests issued at the start: one piece each from the front of the pool, to parsable endpoints. -/
theorem startRequests_spec (info : Info) (peers : List TPeer) (hne : peers ≠ []) (hp : ∀ p ∈ peers, Parses p.endpoint) :
    ∀ (shuffles : List (List TPeer)) (pool : PiecePool), (∀ l ∈ shuffles, l.Perm peers) →
    ∃ reqs, startRequests info shuffles pool = (.ok (), pool.drop shuffles.length, reqs) ∧
      reqs.map Request.idx = pool.take shuffles.length ∧ ∀ r ∈ reqs, r.info = info ∧ Parses r.endpoint := by
  intro shuffles
  induction shuffles with
  | nil => intro pool _; exact ⟨[], by simp [startRequests], by simp, by simp⟩
  | cons l rest ih =>
    intro pool hs
    have hl : l.Perm peers := hs l (by simp)
    have hlne : l ≠ [] := fun e => hne (by rw [e] at hl; exact List.nil_perm.mp hl)
    obtain ⟨p, hpl, e, -, -⟩ := findSuitablePeer_ok (ε := Unit) hlne
    rw [startRequests, e]
    simp only []
    cases pool with
    | nil =>
      obtain ⟨reqs, e2, e3, e4⟩ := ih [] (fun l h => hs l (List.mem_cons_of_mem _ h))
      simp only [PiecePool.pop]
      rw [e2]
      exact ⟨reqs, by simp, by simpa using e3, e4⟩
    | cons i q =>
      obtain ⟨reqs, e2, e3, e4⟩ := ih q (fun l h => hs l (List.mem_cons_of_mem _ h))
      simp only [PiecePool.pop]
      rw [e2]
      refine ⟨⟨p.endpoint, info, i⟩ :: reqs, by simp, by simp [e3], ?_⟩
      intro r hr
      rcases List.mem_cons.mp hr with rfl | hr
      · exact ⟨rfl, hp p (hl.mem_iff.mp hpl)⟩
      · exact e4 r hr

/-! ### The invariant -/

/-- The metadata has a hash for piece `i` and it is that of `piece`. -/
def HasHash (w : World) (info : Info) (i : Nat) (piece : Bytes) : Prop :=
  (i + 1) * 20 ≤ info.pieces.length ∧ w.sha piece = (info.pieces.drop (i * 20)).take 20

/-- What is true of a message in the mailbox of the torrent actor. -/
def MailGood (w : World) (info : Info) : Mail → Prop
  | .found p => Parses p.endpoint
  | .success e piece i => Parses e ∧ HasHash w info i piece
  | .failed e _ => Parses e

/-- What is true of a message to the writer. -/
def ReadyGood (w : World) (info : Info) (r : Ready) : Prop :=
  HasHash w info r.idx r.piece ∧ info.getFiles = .ok r.files ∧ r.pieceLength = info.pieceLength

/-- A torrent without metadata. -/
structure Fresh (s : Sys) : Prop where
  info : s.torrent.info = none
  pool : s.torrent.pool = none
  initiated : s.torrent.initiated = false
  queue : s.queue = []
  busy : s.busy = []
  workers : s.workers = 5
  ready : s.ready = []
  written : s.written = []
  lost : s.lost = []
  mail : ∀ m ∈ s.mail, ∃ p, m = .found p ∧ Parses p.endpoint
  peers : ∀ p ∈ s.torrent.peers, Parses p.endpoint

/-- A torrent with metadata. -/
structure Known (w : World) (info : Info) (n : Nat) (s : Sys) : Prop where
  total : (pieceTotal w.build info : Res Unit Nat) = .ok n
  hasInfo : s.torrent.info = some info
  pool : s.torrent.pool = some (waiting s)
  up : s.down = false
  nonempty : s.torrent.peers ≠ []
  perm : (waiting s ++ flight s ++ handed s ++ s.lost).Perm (List.range n)
  requests : ∀ r ∈ s.queue ++ s.busy, r.info = info ∧ Parses r.endpoint
  mail : ∀ m ∈ s.mail, MailGood w info m
  peers : ∀ p ∈ s.torrent.peers, Parses p.endpoint
  ready : ∀ r ∈ s.written ++ s.ready, ReadyGood w info r
  idle : s.torrent.initiated = false → flight s = [] ∧ handed s = [] ∧ s.lost = [] ∧ waiting s = List.range n
  five : (flight s).length + s.lost.length ≤ 5
  full : s.torrent.initiated = true → waiting s ≠ [] → (flight s).length + s.lost.length = 5
  workers : s.workers + s.lost.length = 5
  busy : s.busy.length ≤ s.workers

/-- Both kinds of length are there if one is. -/
theorem getFiles_of_total {ε : Type} {m : Build} {info : Info} {n : Nat} (h : (pieceTotal m info : Res ε Nat) = .ok n) :
    ∃ files, info.getFiles = .ok files := by
  unfold pieceTotal Info.getTotalLength at h
  unfold Info.getFiles
  cases hf : info.files with
  | some fs => exact ⟨fs, rfl⟩
  | none =>
    cases hl : info.length with
    | some n => exact ⟨_, rfl⟩
    | none => rw [hf, hl] at h; simp at h

theorem requestNext_nil (t : Torrent) (info : Info) (e : Bytes) : t.requestNext info e [] = ({ t with pool := some [] }, []) := rfl

theorem requestNext_cons (t : Torrent) (info : Info) (e : Bytes) (i : Nat) (q : PiecePool) :
    t.requestNext info e (i :: q) = ({ t with pool := some q }, [⟨e, info, i⟩]) := rfl

theorem known_announce {w : World} {info : Info} {n : Nat} {s : Sys} (h : Known w info n s) {bytes : Bytes} {p : PeerEndpoint}
    (hp : p ∈ PeerEndpoint.fromBytes bytes) : Known w info n { s with mail := s.mail ++ [.found p] } := by
  have hf : flight { s with mail := s.mail ++ [.found p] } = flight s := by simp [flight, reports_append]
  refine { h with perm := ?_, idle := ?_, five := ?_, full := ?_, mail := ?_ }
  · rw [hf]; exact h.perm
  · intro m hm
    rcases List.mem_append.mp hm with hm | hm
    · exact h.mail m hm
    · rw [List.mem_singleton.mp hm]; exact fromBytes_parses hp
  · rw [hf]; exact h.idle
  · rw [hf]; exact h.five
  · rw [hf]; exact h.full

theorem known_take {w : World} {info : Info} {n : Nat} {s : Sys} (h : Known w info n s) {r : Request} {queue : List Request}
    (hq : s.queue = r :: queue) (hb : s.busy.length < s.workers) : Known w info n { s with queue, busy := s.busy ++ [r] } := by
  have hc : ∀ a, (flight { s with queue, busy := s.busy ++ [r] }).count a = (flight s).count a := by
    intro a
    simp only [flight, hq, List.map_append, List.map_cons, List.map_nil, List.count_append, List.count_cons, List.count_nil]
    omega
  have hl : (flight { s with queue, busy := s.busy ++ [r] }).length = (flight s).length := (List.perm_iff_count.mpr hc).length_eq
  have hn : flight s = [] → False := by simp [flight, hq]
  refine { h with perm := ?_, idle := ?_, five := ?_, full := ?_, requests := ?_, busy := ?_ }
  · refine List.perm_iff_count.mpr fun a => ?_
    have := (List.perm_iff_count.mp h.perm) a
    simp only [List.count_append] at this ⊢
    rw [hc]
    exact this
  · intro r' hr
    apply h.requests
    rw [hq]
    simp only [List.mem_append, List.mem_cons, List.not_mem_nil, or_false] at hr ⊢
    rcases hr with hr | hr | hr
    · exact .inl (.inr hr)
    · exact .inr hr
    · exact .inl (.inl hr)
  · intro hi; exact absurd (h.idle hi).1 hn
  · rw [hl]; exact h.five
  · rw [hl]; exact h.full
  · simp only [List.length_append, List.length_singleton]; omega

theorem known_finish {w : World} {info : Info} {n : Nat} {s : Sys} (h : Known w info n s) {pre post : List Request} {r : Request}
    (hb : s.busy = pre ++ r :: post) {m : Mail} (hm : reports [m] = [r.idx]) (hg : MailGood w info m) :
    Known w info n { s with busy := pre ++ post, mail := s.mail ++ [m] } := by
  have hc : ∀ a, (flight { s with busy := pre ++ post, mail := s.mail ++ [m] }).count a = (flight s).count a := by
    intro a
    simp only [flight, hb, reports_append, hm, List.map_append, List.map_cons, List.count_append, List.count_cons, List.count_nil]
    omega
  have hl : (flight { s with busy := pre ++ post, mail := s.mail ++ [m] }).length = (flight s).length := (List.perm_iff_count.mpr hc).length_eq
  have hn : flight s = [] → False := by simp [flight, hb]
  refine { h with perm := ?_, idle := ?_, five := ?_, full := ?_, requests := ?_, busy := ?_, mail := ?_ }
  · refine List.perm_iff_count.mpr fun a => ?_
    have := (List.perm_iff_count.mp h.perm) a
    simp only [List.count_append] at this ⊢
    rw [hc]
    exact this
  · intro r' hr
    apply h.requests
    rw [hb]
    simp only [List.mem_append, List.mem_cons] at hr ⊢
    rcases hr with hr | hr | hr
    · exact .inl hr
    · exact .inr (.inl hr)
    · exact .inr (.inr (.inr hr))
  · intro m' hm'
    rcases List.mem_append.mp hm' with hm' | hm'
    · exact h.mail m' hm'
    · rw [List.mem_singleton.mp hm']; exact hg
  · intro hi; exact absurd (h.idle hi).1 hn
  · rw [hl]; exact h.five
  · rw [hl]; exact h.full
  · have := h.busy
    rw [hb] at this
    simp only [List.length_append, List.length_cons] at this ⊢
    omega

theorem known_panic {w : World} {info : Info} {n : Nat} {s : Sys} (h : Known w info n s) {pre post : List Request} {r : Request}
    (hb : s.busy = pre ++ r :: post) :
    Known w info n { s with busy := pre ++ post, workers := s.workers - 1, lost := s.lost ++ [r.idx] } := by
  have hl : (flight { s with busy := pre ++ post, workers := s.workers - 1, lost := s.lost ++ [r.idx] }).length + 1 = (flight s).length := by
    simp only [flight, hb, List.length_append, List.length_map, List.length_cons]
    omega
  have hn : flight s = [] → False := by simp [flight, hb]
  have hbl := h.busy
  rw [hb] at hbl
  simp only [List.length_append, List.length_cons] at hbl
  refine { h with perm := ?_, idle := ?_, five := ?_, full := ?_, requests := ?_, busy := ?_, workers := ?_ }
  · refine List.perm_iff_count.mpr fun a => ?_
    have := (List.perm_iff_count.mp h.perm) a
    rw [← this]
    simp only [waiting, flight, handed, hb, List.map_append, List.map_cons, List.count_append, List.count_cons, List.count_nil]
    omega
  · intro r' hr
    apply h.requests
    rw [hb]
    simp only [List.mem_append, List.mem_cons] at hr ⊢
    rcases hr with hr | hr | hr
    · exact .inl hr
    · exact .inr (.inl hr)
    · exact .inr (.inr (.inr hr))
  · intro hi; exact absurd (h.idle hi).1 hn
  · have := h.five
    simp only [List.length_append, List.length_singleton]
    omega
  · intro hi hw
    have := h.full hi hw
    simp only [List.length_append, List.length_singleton]
    omega
  · have := h.workers
    simp only [List.length_append, List.length_singleton]
    omega
  · simp only [List.length_append]
    omega

theorem known_write {w : World} {info : Info} {n : Nat} {s : Sys} (h : Known w info n s) {r : Ready} {ready : List Ready}
    (hr : s.ready = r :: ready) (fs : FS) (up : Bool) :
    Known w info n { s with ready, written := s.written ++ [r], fs, writerUp := up } := by
  have hh : handed { s with ready, written := s.written ++ [r], fs, writerUp := up } = handed s := by
    simp [handed, hr]
  refine { h with perm := ?_, idle := ?_, ready := ?_ }
  · rw [hh]; exact h.perm
  · intro r' hr'
    apply h.ready
    rw [hr]
    simpa using hr'
  · rw [hh]; exact h.idle

theorem known_success {w : World} {info : Info} {n : Nat} {s : Sys} (h : Known w info n s) {endpoint piece : Bytes} {idx : Nat} {rest : List Mail}
    (hm : s.mail = .success endpoint piece idx :: rest) :
    Known w info n (s.after (.success endpoint piece idx) rest (s.torrent.onSuccess endpoint piece idx)) := by
  obtain ⟨files, hfiles⟩ := getFiles_of_total h.total
  have hmail : MailGood w info (.success endpoint piece idx) := h.mail _ (by rw [hm]; exact List.mem_cons_self ..)
  have hn : flight s = [] → False := by simp [flight, hm]
  have hi : s.torrent.initiated = true := by
    cases hi : s.torrent.initiated with
    | true => rfl
    | false => exact absurd (h.idle hi).1 hn
  have hpeers := parses_of_endpoints (updateSuccess_endpoints s.torrent.peers endpoint) h.peers
  have hne : TPeer.updateSuccess s.torrent.peers endpoint ≠ [] := by
    intro e
    have := congrArg List.length e
    simp only [TPeer.updateSuccess, List.length_map, List.length_nil] at this
    exact h.nonempty (List.length_eq_zero_iff.mp this)
  have hp := h.perm
  have hfl := h.full hi
  have h5 := h.five
  have hpool := h.pool
  generalize hw : waiting s = q at hp hfl hpool
  have hready : ∀ r ∈ s.written ++ (s.ready ++ [⟨piece, files, idx, info.pieceLength⟩]), ReadyGood w info r := by
    intro r hr
    rw [← List.append_assoc] at hr
    rcases List.mem_append.mp hr with hr | hr
    · exact h.ready r hr
    · rw [List.mem_singleton.mp hr]
      exact ⟨hmail.2, hfiles, rfl⟩
  cases q with
  | nil =>
    have e : s.torrent.onSuccess endpoint piece idx = ⟨.ok (), { s.torrent with peers := TPeer.updateSuccess s.torrent.peers endpoint, pool := some [] }, [],
        [⟨piece, files, idx, info.pieceLength⟩]⟩ := by
      rw [Torrent.onSuccess, h.hasInfo]
      simp only [hfiles, hpool]
      rw [h.hasInfo]
      rfl
    rw [e]
    refine { total := h.total, hasInfo := h.hasInfo, pool := rfl, up := rfl, nonempty := hne, perm := ?_, requests := ?_, mail := ?_, peers := hpeers,
             ready := hready, idle := ?_, five := ?_, full := ?_, workers := h.workers, busy := h.busy }
    · refine List.perm_iff_count.mpr fun a => ?_
      rw [← (List.perm_iff_count.mp hp) a]
      simp only [Sys.after, waiting, flight, handed, hm, List.append_nil, reports_success, List.map_append, List.map_cons, List.map_nil, List.count_append,
        List.count_cons, List.count_nil, Option.getD_some]
      omega
    · simpa [Sys.after] using h.requests
    · intro m hm'
      exact h.mail m (by rw [hm]; exact List.mem_cons_of_mem _ hm')
    · intro hi'
      simp only [Sys.after] at hi'
      rw [hi] at hi'; cases hi'
    · simp only [Sys.after, flight, List.append_nil]
      simp only [flight, hm, reports_success, List.length_append, List.length_cons] at h5 ⊢
      omega
    · intro _ hq
      exact absurd rfl hq
  | cons i q =>
    have e : s.torrent.onSuccess endpoint piece idx = ⟨.ok (), { s.torrent with peers := TPeer.updateSuccess s.torrent.peers endpoint, pool := some q },
        [⟨endpoint, info, i⟩], [⟨piece, files, idx, info.pieceLength⟩]⟩ := by
      rw [Torrent.onSuccess, h.hasInfo]
      simp only [hfiles, hpool]
      rw [h.hasInfo]
      rfl
    rw [e]
    have hl : (flight s).length + s.lost.length = 5 := hfl (by simp)
    have hl2 : (flight (s.after (.success endpoint piece idx) rest ⟨.ok (),
        { s.torrent with peers := TPeer.updateSuccess s.torrent.peers endpoint, pool := some q },
        [⟨endpoint, info, i⟩], [⟨piece, files, idx, info.pieceLength⟩]⟩)).length = (flight s).length := by
      simp only [Sys.after, flight, hm, reports_success, List.length_append, List.length_cons, List.length_map, List.length_nil]
      omega
    refine { total := h.total, hasInfo := h.hasInfo, pool := rfl, up := rfl, nonempty := hne, perm := ?_, requests := ?_, mail := ?_, peers := hpeers,
             ready := hready, idle := ?_, five := ?_, full := ?_, workers := h.workers, busy := h.busy }
    · refine List.perm_iff_count.mpr fun a => ?_
      rw [← (List.perm_iff_count.mp hp) a]
      simp only [Sys.after, waiting, flight, handed, hm, reports_success, List.map_append, List.map_cons, List.map_nil, List.count_append,
        List.count_cons, List.count_nil, Option.getD_some]
      omega
    · intro r hr
      simp only [Sys.after, List.mem_append, List.mem_singleton] at hr
      rcases hr with (hr | rfl) | hr
      · exact h.requests r (List.mem_append_left _ hr)
      · exact ⟨rfl, hmail.1⟩
      · exact h.requests r (List.mem_append_right _ hr)
    · intro m hm'
      exact h.mail m (by rw [hm]; exact List.mem_cons_of_mem _ hm')
    · intro hi'
      simp only [Sys.after] at hi'
      rw [hi] at hi'; cases hi'
    · rw [hl2]; exact h5
    · intro _ _
      rw [hl2]; exact hl

theorem known_failed {w : World} {info : Info} {n : Nat} {s : Sys} (h : Known w info n s) {endpoint : Bytes} {idx : Nat} {rest : List Mail}
    (hm : s.mail = .failed endpoint idx :: rest) {shuffled : List TPeer} (hs : shuffled.Perm (TPeer.updateFailed s.torrent.peers endpoint)) :
    Known w info n (s.after (.failed endpoint idx) rest (s.torrent.onFailed shuffled endpoint idx)) := by
  have hn : flight s = [] → False := by simp [flight, hm]
  have hi : s.torrent.initiated = true := by
    cases hi : s.torrent.initiated with
    | true => rfl
    | false => exact absurd (h.idle hi).1 hn
  have hpeers := parses_of_endpoints (updateFailed_endpoints s.torrent.peers endpoint) h.peers
  have hne : TPeer.updateFailed s.torrent.peers endpoint ≠ [] := by
    intro e
    have := congrArg List.length e
    simp only [TPeer.updateFailed, List.length_map, List.length_nil] at this
    exact h.nonempty (List.length_eq_zero_iff.mp this)
  have hsne : shuffled ≠ [] := fun e => hne (by rw [e] at hs; exact List.nil_perm.mp hs)
  obtain ⟨p, hpm, hpe, -, -⟩ := findSuitablePeer_ok (ε := Unit) hsne
  have hpp : Parses p.endpoint := hpeers p (hs.mem_iff.mp hpm)
  have hp := h.perm
  have hfl := h.full hi
  have h5 := h.five
  have hpool := h.pool
  generalize hw : waiting s = q at hp hfl hpool
  obtain ⟨i, q', hq'⟩ : ∃ i q', q ++ [idx] = i :: q' := by
    cases q with
    | nil => exact ⟨idx, [], rfl⟩
    | cons a q => exact ⟨a, q ++ [idx], rfl⟩
  have hcount : ∀ a, q.count a + (if idx = a then 1 else 0) = q'.count a + (if i = a then 1 else 0) := by
    intro a
    have := congrArg (List.count a) hq'
    simp only [List.count_append, List.count_cons, List.count_nil, beq_iff_eq] at this
    omega
  have hq0 : q' ≠ [] → q ≠ [] := by
    intro h1 h2
    subst h2
    simp only [List.nil_append, List.cons.injEq] at hq'
    exact h1 hq'.2.symm
  have e : s.torrent.onFailed shuffled endpoint idx = ⟨.ok (), { s.torrent with peers := TPeer.updateFailed s.torrent.peers endpoint, pool := some q' },
      [⟨p.endpoint, info, i⟩], []⟩ := by
    rw [Torrent.onFailed, hpool]
    simp only [hpe, h.hasInfo, PiecePool.insert, hq']
    rfl
  rw [e]
  have hl2 : (flight (s.after (.failed endpoint idx) rest ⟨.ok (), { s.torrent with peers := TPeer.updateFailed s.torrent.peers endpoint, pool := some q' },
      [⟨p.endpoint, info, i⟩], []⟩)).length = (flight s).length := by
    simp only [Sys.after, flight, hm, reports_failed, List.length_append, List.length_cons, List.length_map, List.length_nil]
    omega
  refine { total := h.total, hasInfo := h.hasInfo, pool := rfl, up := rfl, nonempty := hne, perm := ?_, requests := ?_, mail := ?_, peers := hpeers,
           ready := ?_, idle := ?_, five := ?_, full := ?_, workers := h.workers, busy := h.busy }
  · refine List.perm_iff_count.mpr fun a => ?_
    rw [← (List.perm_iff_count.mp hp) a]
    have := hcount a
    simp only [Sys.after, waiting, flight, handed, hm, List.append_nil, reports_failed, List.map_append, List.map_cons, List.map_nil, List.count_append,
      List.count_cons, List.count_nil, Option.getD_some, beq_iff_eq]
    omega
  · intro r hr
    simp only [Sys.after, List.mem_append, List.mem_singleton] at hr
    rcases hr with (hr | rfl) | hr
    · exact h.requests r (List.mem_append_left _ hr)
    · exact ⟨rfl, hpp⟩
    · exact h.requests r (List.mem_append_right _ hr)
  · intro m hm'
    exact h.mail m (by rw [hm]; exact List.mem_cons_of_mem _ hm')
  · simpa [Sys.after] using h.ready
  · intro hi'
    simp only [Sys.after] at hi'
    rw [hi] at hi'; cases hi'
  · rw [hl2]; exact h5
  · intro _ hq
    rw [hl2]
    exact hfl (hq0 hq)

theorem known_found {w : World} {info : Info} {n : Nat} {s : Sys} (h : Known w info n s) {p : PeerEndpoint} {rest : List Mail}
    (hm : s.mail = .found p :: rest) {shuffles : List (List TPeer)} (hn : shuffles.length = 5)
    (hs : ∀ l ∈ shuffles, l.Perm (s.torrent.addPeer p).peers) :
    Known w info n (s.after (.found p) rest ((s.torrent.addPeer p).onReady info shuffles)) := by
  have hmail : MailGood w info (.found p) := h.mail _ (by rw [hm]; exact List.mem_cons_self ..)
  have hpeers : ∀ q ∈ (s.torrent.addPeer p).peers, Parses q.endpoint := by
    intro q hq
    rcases List.mem_append.mp hq with hq | hq
    · exact h.peers q hq
    · rw [List.mem_singleton.mp hq]; exact hmail
  have hne : (s.torrent.addPeer p).peers ≠ [] := by simp [Torrent.addPeer]
  rw [Torrent.onReady]
  split
  · rename_i hc
    have hi : s.torrent.initiated = false := by
      simp only [Bool.and_eq_true, Bool.not_eq_true', Torrent.addPeer] at hc
      exact hc.2
    obtain ⟨hf, hh, hlost, hwait⟩ := h.idle hi
    have hq : s.queue = [] ∧ s.busy = [] ∧ reports s.mail = [] := by
      simp only [flight, List.append_eq_nil_iff, List.map_eq_nil_iff] at hf
      exact ⟨hf.1.1, hf.1.2, hf.2⟩
    have hrest : reports rest = [] := by rw [← hq.2.2, hm]; rfl
    have hpool : (s.torrent.addPeer p).pool = some (List.range n) := by rw [← hwait]; exact h.pool
    obtain ⟨reqs, e1, e2, e3⟩ := startRequests_spec info (s.torrent.addPeer p).peers hne hpeers shuffles (List.range n) hs
    rw [hpool]
    simp only [e1]
    have hfl : flight (s.after (.found p) rest
        ⟨.ok (), { s.torrent.addPeer p with pool := some ((List.range n).drop shuffles.length), initiated := !reqs.isEmpty }, reqs, []⟩) =
        (List.range n).take 5 := by
      simp only [Sys.after, flight, hq.1, hq.2.1, hrest, List.nil_append, e2, List.map_nil, List.append_nil, hn]
    refine { total := h.total, hasInfo := h.hasInfo, pool := rfl, up := rfl, nonempty := hne, perm := ?_, requests := ?_, mail := ?_, peers := hpeers,
             ready := ?_, idle := ?_, five := ?_, full := ?_, workers := h.workers, busy := h.busy }
    · rw [hfl]
      refine List.perm_iff_count.mpr fun a => ?_
      have hh' : s.written = [] ∧ s.ready = [] := by
        simpa [handed] using hh
      simp only [Sys.after, waiting, handed, hh'.1, hh'.2, hlost, hn, List.append_nil, List.map_nil, Option.getD_some, List.count_append]
      have := congrArg (List.count a) (List.take_append_drop 5 (List.range n))
      rw [List.count_append] at this
      omega
    · simp only [Sys.after, hq.1, hq.2.1, List.nil_append, List.append_nil]
      exact e3
    · intro m hm'
      exact h.mail m (by rw [hm]; exact List.mem_cons_of_mem _ hm')
    · simpa [Sys.after] using h.ready
    · intro hi'
      rw [hfl]
      simp only [Sys.after, Bool.not_eq_false', List.isEmpty_iff] at hi'
      rw [hi', hn] at e2
      have hh' : s.written = [] ∧ s.ready = [] := by
        simpa [handed] using hh
      refine ⟨e2.symm, by simp [handed, Sys.after, hh'.1, hh'.2], hlost, ?_⟩
      simp only [waiting, Sys.after, Option.getD_some, hn]
      have := List.take_append_drop 5 (List.range n)
      rw [← e2] at this
      simpa using this
    · rw [hfl]
      simp only [Sys.after, hlost, List.length_take, List.length_nil]
      omega
    · intro _ hne'
      rw [hfl]
      simp only [waiting, Sys.after, Option.getD_some, hn] at hne'
      have : 5 < n := by
        rcases Nat.lt_or_ge 5 n with h | h
        · exact h
        · exact absurd (List.drop_eq_nil_of_le (by simp; omega)) hne'
      simp only [Sys.after, hlost, List.length_take, List.length_nil, List.length_range]
      omega
  · have hf : flight (s.after (.found p) rest ⟨.ok (), s.torrent.addPeer p, [], []⟩) = flight s := by
      simp [flight, Sys.after, hm]
    have hh : handed (s.after (.found p) rest ⟨.ok (), s.torrent.addPeer p, [], []⟩) = handed s := by
      simp [handed, Sys.after]
    refine { total := h.total, hasInfo := h.hasInfo, pool := h.pool, up := rfl, nonempty := hne, perm := ?_, requests := ?_, mail := ?_, peers := hpeers,
             ready := ?_, idle := ?_, five := ?_, full := ?_, workers := h.workers, busy := h.busy }
    · rw [hf, hh]; exact h.perm
    · simpa [Sys.after] using h.requests
    · intro m hm'
      exact h.mail m (by rw [hm]; exact List.mem_cons_of_mem _ hm')
    · simpa [Sys.after] using h.ready
    · rw [hf, hh]; exact h.idle
    · rw [hf]; exact h.five
    · rw [hf]; exact h.full

theorem known_step {w : World} {info : Info} {n : Nat} {s t : Sys} (h : Known w info n s) (hst : Step w s t) : Known w info n t := by
  cases hst with
  | announce bytes p hp => exact known_announce h hp
  | take r queue hq hb => exact known_take h hq hb
  | finishOk pre post r hb tcp f peerId piece hd =>
    have hr := h.requests r (by rw [hb]; simp)
    rw [hr.1] at hd
    exact known_finish h hb rfl ⟨hr.2, C38_verified _ _ _ _ _ _ _ _ hd⟩
  | finishErr pre post r hb tcp f peerId e hd =>
    have hr := h.requests r (by rw [hb]; simp)
    exact known_finish h hb rfl hr.2
  | finishPanic pre post r hb tcp f peerId hd => exact known_panic h hb
  | success endpoint piece idx rest hd hm => exact known_success h hm
  | failed endpoint idx rest hd hm shuffled hs => exact known_failed h hm hs
  | collect p rest hd hm hi => rw [h.hasInfo] at hi; cases hi
  | found p rest hd hm info' hi shuffles hn hs =>
    rw [h.hasInfo] at hi
    cases hi
    exact known_found h hm hn hs
  | write r ready hu hr res fs hw => exact known_write h hr fs _

theorem known_steps {w : World} {info : Info} {n : Nat} {s t : Sys} (h : Known w info n s) (hst : Steps w s t) : Known w info n t := by
  induction hst with
  | refl => exact h
  | tail _ hstep ih => exact known_step ih hstep

theorem fresh_init (infoHash : Bytes) (fs : FS) : Fresh (Sys.init infoHash fs) := by
  constructor <;> simp [Sys.init, Torrent.new]

theorem fresh_step {w : World} {s t : Sys} (h : Fresh s) (hst : Step w s t) : Fresh t ∨ ∃ info n, Known w info n t := by
  cases hst with
  | announce bytes p hp =>
    refine .inl { h with mail := ?_ }
    intro m hm
    rcases List.mem_append.mp hm with hm | hm
    · exact h.mail m hm
    · exact ⟨p, List.mem_singleton.mp hm, fromBytes_parses hp⟩
  | take r queue hq hb => rw [h.queue] at hq; cases hq
  | finishOk pre post r hb => rw [h.busy] at hb; simp at hb
  | finishErr pre post r hb => rw [h.busy] at hb; simp at hb
  | finishPanic pre post r hb => rw [h.busy] at hb; simp at hb
  | success endpoint piece idx rest hd hm =>
    obtain ⟨p, e, -⟩ := h.mail _ (by rw [hm]; exact List.mem_cons_self ..)
    cases e
  | failed endpoint idx rest hd hm =>
    obtain ⟨p, e, -⟩ := h.mail _ (by rw [hm]; exact List.mem_cons_self ..)
    cases e
  | found p rest hd hm info hi => rw [h.info] at hi; cases hi
  | write r ready hu hr => rw [h.ready] at hr; cases hr
  | collect p rest hd hm hi tcp f peerId room collected fs hh hc =>
    have hp : Parses p.endpoint := by
      obtain ⟨p', e, hp⟩ := h.mail _ (by rw [hm]; exact List.mem_cons_self ..)
      cases e; exact hp
    have hpeers : ∀ q ∈ (s.torrent.addPeer p).peers, Parses q.endpoint := by
      intro q hq
      rcases List.mem_append.mp hq with hq | hq
      · exact h.peers q hq
      · rw [List.mem_singleton.mp hq]; exact hp
    have hmail : ∀ m ∈ rest, ∃ p, m = .found p ∧ Parses p.endpoint := fun m hm' => h.mail m (by rw [hm]; exact List.mem_cons_of_mem _ hm')
    have stay : ∀ r, Fresh { s.after (.found p) rest ⟨r, s.torrent.addPeer p, [], []⟩ with fs } := fun r =>
      { info := h.info, pool := h.pool, initiated := h.initiated, queue := by simp [Sys.after, h.queue], busy := h.busy, workers := h.workers,
        ready := by simp [Sys.after, h.ready], written := h.written, lost := h.lost, mail := hmail, peers := hpeers }
    cases collected with
    | hang => exact .inl (stay _)
    | err e => exact .inl (stay _)
    | panic => exact .inl (stay _)
    | ok o =>
      cases o with
      | none => exact .inl (stay _)
      | some info =>
        simp only [Torrent.onCollected]
        cases hn : (pieceTotal w.build info : Res Unit Nat) with
        | hang => exact .inl (stay _)
        | err e => exact .inl (stay _)
        | panic => exact .inl (stay _)
        | ok n =>
          have hrep : reports rest = [] := by
            rw [reports, List.filterMap_eq_nil_iff]
            intro m hm'
            obtain ⟨q, rfl, -⟩ := hmail m hm'
            rfl
          refine .inr ⟨info, n, ?_⟩
          refine { total := hn, hasInfo := rfl, pool := rfl, up := rfl, nonempty := by simp [Sys.after, Torrent.addPeer], perm := ?_, requests := ?_, mail := ?_,
                   peers := hpeers, ready := ?_, idle := ?_, five := ?_, full := ?_, workers := ?_, busy := ?_ }
          · simp [waiting, flight, handed, Sys.after, h.queue, h.busy, h.written, h.ready, h.lost, hrep, pool_new]
          · simp [Sys.after, h.queue, h.busy]
          · intro m hm'
            obtain ⟨q, rfl, hq⟩ := hmail m hm'
            exact hq
          · simp [Sys.after, h.written, h.ready]
          · intro _
            simp [waiting, flight, handed, Sys.after, h.queue, h.busy, h.written, h.ready, h.lost, hrep, pool_new]
          · simp [flight, Sys.after, h.queue, h.busy, h.lost, hrep]
          · intro hi'
            simp only [Sys.after, Torrent.addPeer, h.initiated] at hi'
            cases hi'
          · simp [Sys.after, h.lost, h.workers]
          · simp [Sys.after, h.busy]

theorem among_steps {w : World} {s t : Sys} (h : Among w s) (hs : Steps w s t) : Among w t := by
  induction hs with
  | refl => exact h
  | tail _ hst ih => exact .step ih hst

theorem among_of {w : World} {infoHash : Bytes} {fs : FS} {s : Sys} (h : Steps w (Sys.init infoHash fs) s) : Among w s := among_steps (.init _ _) h

theorem Reachable.among {w : World} {s : Sys} (h : Reachable w s) : Among w s := by
  obtain ⟨_, _, h⟩ := h
  exact among_of h

theorem fresh_fs {s : Sys} (h : Fresh s) (fs : FS) : Fresh { s with fs := fs } := { h with }

theorem known_fs {w : World} {info : Info} {n : Nat} {s : Sys} (h : Known w info n s) (fs : FS) : Known w info n { s with fs := fs } := { h with }

theorem among_inv {w : World} {s : Sys} (h : Among w s) : Fresh s ∨ ∃ info n, Known w info n s := by
  induction h with
  | init => exact .inl (fresh_init _ _)
  | step _ hstep ih =>
    rcases ih with ih | ⟨info, n, ih⟩
    · exact fresh_step ih hstep
    · exact .inr ⟨info, n, known_step ih hstep⟩
  | disk _ fs ih =>
    rcases ih with ih | ⟨info, n, ih⟩
    · exact .inl (fresh_fs ih fs)
    · exact .inr ⟨info, n, known_fs ih fs⟩
  | wrote _ r ready hu hr fs up ih =>
    rcases ih with ih | ⟨info, n, ih⟩
    · rw [ih.ready] at hr; cases hr
    · exact .inr ⟨info, n, known_write ih hr fs up⟩

theorem among_known {w : World} {s : Sys} {info : Info} (h : Among w s) (hi : s.torrent.info = some info) : ∃ n, Known w info n s := by
  rcases among_inv h with h | ⟨info', n, h⟩
  · rw [h.info] at hi; cases hi
  · have := h.hasInfo
    rw [hi] at this
    cases this
    exact ⟨n, h⟩

end RustBit
