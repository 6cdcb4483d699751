/-
C109: a torrent may be told of as many peers as the bound allows.
-/
import Verif.Props.Held
import Verif.Props.Outage

namespace RustBit
open Spec

/-- What a tracker may answer: 663 peers. -/
def manyPeers : UdpNet := answers [] (List.replicate 20 0 ++ (List.replicate 663 [1, 2, 3, 4, 0, 80]).flatten)

theorem fromBytes_replicate (n : Nat) : PeerEndpoint.fromBytes (List.replicate n [1, 2, 3, 4, 0, 80]).flatten = List.replicate n peer0 := by
  induction n with
  | zero => rfl
  | succ n ih =>
    rw [List.replicate_succ, List.replicate_succ, List.flatten_cons, ← ih]
    show (chunksExact 6 (1 :: 2 :: 3 :: 4 :: 0 :: 80 :: _)).map PeerEndpoint.ofChunk = _
    rw [chunksExact_cons6, List.map_cons]
    rfl

theorem replicate_bytes (n : Nat) : (List.replicate n ([1, 2, 3, 4, 0, 80] : Bytes)).flatten.length = 6 * n := by
  induction n with
  | zero => rfl
  | succ n ih =>
    rw [List.replicate_succ, List.flatten_cons, List.length_append, ih]
    simp only [List.length_cons, List.length_nil]
    omega

theorem manyPeers_answers {k : Nat} {u : TrackerUrl} (hk : builtinUrls[k]? = some u) (hash : Bytes) :
    (getPeersByTracker manyPeers (fun _ => .failed) [] u hash).1 = .ok (List.replicate 663 peer0) := by
  obtain ⟨h, p, e⟩ := builtin_lookup hk
  rw [e]
  have hl := replicate_bytes 663
  have hf := fromBytes_replicate 663
  unfold manyPeers
  generalize (List.replicate 663 ([1, 2, 3, 4, 0, 80] : Bytes)).flatten = b at hl hf
  rw [getPeers_answers, if_pos (by rw [List.length_append, List.length_replicate]; omega), List.take_of_length_le (by rw [List.length_append, List.length_replicate]; omega),
    List.drop_append_of_le_length (by simp), List.drop_of_length_le (by simp), List.nil_append, hf]

theorem forward_many (n k : Nat) : forwardLoop (fun _ _ => true) k (List.replicate n peer0) = List.replicate n peer0 := by
  induction n generalizing k with
  | zero => rfl
  | succ n ih =>
    rw [List.replicate_succ, forwardLoop, if_pos (by decide +kernel), ih]

/-- Every tracker that has the torrent in its mailbox may answer with 663 peers, one after the other. -/
theorem answer_all {r : Registered} : ∀ (post pre : List TrackerSys) {T : Trackers}, T.trackers = pre ++ post →
    (∀ t ∈ post, t.up = true ∧ t.url ∈ builtinUrls ∧ t.mail = [r] ∧ t.pending = []) →
    ∃ T', TSteps T T' ∧ T'.found = T.found ++ List.replicate (post.length * 663) (r.torrent, peer0) ∧ T'.added = T.added := by
  intro post
  induction post with
  | nil =>
    intro pre T hT _
    exact ⟨T, .refl _, by simp, rfl⟩
  | cons t post ih =>
    intro pre T hT hpost
    obtain ⟨hu, hurl, hm, hpd⟩ := hpost t (List.mem_cons_self ..)
    obtain ⟨i, hi⟩ := List.getElem?_of_mem hurl
    have hk : T.trackers[pre.length]? = some t := by simp [hT]
    have s1 := TStep.spawn T pre.length t r [] hk hu hm
    have hset : ∀ x y : TrackerSys, (pre ++ x :: post).set pre.length y = pre ++ y :: post := by intro x y; simp
    rw [hT, hset] at s1
    have s2 := TStep.answer { T with trackers := pre ++ { t with mail := [], pending := t.pending ++ [r], spawned := t.spawned ++ [r] } :: post } pre.length
      { t with mail := [], pending := t.pending ++ [r], spawned := t.spawned ++ [r] } [] [] r (by simp) hu (by simp [hpd]) manyPeers (fun _ => .failed) (fun _ _ => true) [] _ _
      (Prod.ext (manyPeers_answers hi r.infoHash) rfl)
    rw [forward_many] at s2
    simp only [hset] at s2
    obtain ⟨T1, c1, c2, c3, c4⟩ : ∃ T1, TSteps T T1 ∧ T1.found = T.found ++ List.replicate 663 (r.torrent, peer0) ∧ T1.added = T.added ∧ ∃ x, T1.trackers = pre ++ x :: post :=
      ⟨_, .tail (.tail (.refl _) s1) s2, by rw [List.map_replicate], rfl, _, rfl⟩
    obtain ⟨x, hx⟩ := c4
    obtain ⟨T', a1, a2, a3⟩ := ih (pre ++ [x]) (T := T1) (by rw [hx, List.append_assoc]; rfl) (fun x hx => hpost x (List.mem_cons_of_mem _ hx))
    refine ⟨T', tsteps_trans c1 a1, ?_, a3.trans c3⟩
    rw [a2, c2, List.append_assoc, List.replicate_append_replicate, List.length_cons]
    congr 2
    omega

/-- C109, the bound on peers is attained: by a run in which every tracker answers with 663 peers. -/
theorem C109_peers_attained (w : World) {fs : FS} {n : Nat} (hn : 0 < n) (hfs : fs (w.cwd ++ [b!"test.log"]) ≠ some .dir) {body infoHash : Bytes}
    (ha : addMagnet w.build body = (.ok, some infoHash)) :
    ∃ A s, ASteps w (fun _ => True) (App.init fs n) A ∧ s ∈ A.proc.slots ∧ s.sys.torrent.infoHash = infoHash ∧ s.sys.told.length = 18 * 663 := by
  obtain ⟨fs', h1, -, h3⟩ := started w (fun _ => True) n hfs
  generalize hA0 : (⟨⟨[], fs', [], some 0, []⟩, Trackers.init, n, 0, [], []⟩ : App) = A0 at h1
  have s1 := AStep.add (w := w) A0 (by rw [← hA0]; simp) body infoHash ha 0 (by rw [← hA0]; exact hn) (by rw [← hA0]; simp) _
    (.add A0.trackers ⟨infoHash, A0.proc.slots.length⟩) rfl
  subst hA0
  have p1 := TStep.pass ⟨[⟨infoHash, 0⟩], builtinUrls.map TrackerSys.new, [⟨infoHash, 0⟩], [], [], []⟩ ⟨infoHash, 0⟩ [] _ rfl
    (offerAll_offered _ (builtinUrls.map TrackerSys.new))
  obtain ⟨T', a1, a2, a3⟩ := answer_all (r := ⟨infoHash, 0⟩) (offered ⟨infoHash, 0⟩ (builtinUrls.map TrackerSys.new)) []
    (T := ⟨[], offered ⟨infoHash, 0⟩ (builtinUrls.map TrackerSys.new), [⟨infoHash, 0⟩], [⟨infoHash, 0⟩], [], []⟩) rfl
    (by
      intro t ht
      simp only [offered, List.mem_map] at ht
      obtain ⟨t', ⟨u, hu, rfl⟩, rfl⟩ := ht
      exact ⟨rfl, hu, rfl, rfl⟩)
  have hQ : ∀ x ∈ [(⟨Sys.init infoHash fs', none⟩ : Slot)], ∀ i, x.sys.torrent.info = some i → True := fun _ _ _ _ => trivial
  have s2 := track_steps (w := w) (Q := fun _ => True)
    (A := ⟨⟨[⟨Sys.init infoHash fs', none⟩], fs', [], some 0, []⟩, ⟨[⟨infoHash, 0⟩], builtinUrls.map TrackerSys.new, [⟨infoHash, 0⟩], [], [], []⟩, n, 0, [0], []⟩)
    (by simp) hQ (tsteps_trans (.tail (.refl _) p1) a1) a3
  have r2 := (ASteps.tail h1 s1 hQ).trans s2.steps
  obtain ⟨slots, d1, -, d3⟩ := deliver_all (w := w) (Q := fun _ => True) _ (ainv_steps r2 (ainv_init fs n)) (by simp) (fun _ _ _ _ => trivial) rfl
  have r3 := r2.trans d1.steps
  obtain ⟨y, l, b1, -, fs2, b3⟩ := d3 0 _ rfl
  refine ⟨_, y, r3, List.mem_of_getElem? b1, by rw [b3]; rfl, ?_⟩
  have hi := (ainv_steps r3 (ainv_init fs n)).told 0 y b1
  rw [hi]
  show (messagesTo 0 (List.take T'.found.length T'.found)).length = _
  rw [List.take_length, a2]
  have hlen : (offered ⟨infoHash, 0⟩ (builtinUrls.map TrackerSys.new)).length = 18 := by
    rw [offered, List.length_map, List.length_map]
    decide +kernel
  rw [hlen, List.nil_append, messagesTo, List.length_map, List.filter_replicate, if_pos (by simp), List.length_replicate]

/-- Non-vacuity: in every world, on an empty disk. -/
example (w : World) : ∃ A s, ASteps w (fun _ => True) (App.init (fun _ => none) 4) A ∧ s ∈ A.proc.slots ∧ s.sys.told.length = 18 * 663 := by
  obtain ⟨A, s, h1, h2, -, h3⟩ := C109_peers_attained w (fs := fun _ => none) (n := 4) (by decide) (by simp) (add1 w.build)
  exact ⟨A, s, h1, h2, h3⟩

end RustBit
