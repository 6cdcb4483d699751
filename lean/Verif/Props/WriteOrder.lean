/-
C129: the order in which pieces are written.
-/
import Verif.Spec.WriteOrder
import Verif.Props.Turn

namespace RustBit
open Spec

theorem gotten_append (l l' : List Mail) : gotten (l ++ l') = gotten l ++ gotten l' := by
  induction l with
  | nil => rfl
  | cons m l ih => cases m <;> simp [gotten, ih]

theorem content_append (l l' : List Ready) : content (l ++ l') = content l ++ content l' := List.map_append

theorem write_order_step {w : World} {s t : Sys} (hr : Among w s) (h : content (s.written ++ s.ready) = gotten s.handled) (hst : Step w s t) :
    content (t.written ++ t.ready) = gotten t.handled := by
  have more : ∀ (m : Mail) (l : List Ready), content l = gotten [m] → content (s.written ++ (s.ready ++ l)) = gotten (s.handled ++ [m]) := by
    intro m l e
    rw [← List.append_assoc, content_append, h, e, gotten_append]
  cases hst with
  | announce => exact h
  | take => exact h
  | finishOk => exact h
  | finishErr => exact h
  | finishPanic => exact h
  | success e piece i rest hd hm =>
    refine more _ _ ?_
    rcases among_inv hr with hf | ⟨info, n, hk⟩
    · obtain ⟨p, hp, -⟩ := hf.mail (.success e piece i) (by rw [hm]; exact List.mem_cons_self ..)
      cases hp
    · obtain ⟨files, hfiles⟩ := getFiles_of_total hk.total
      simp only [Torrent.onSuccess, hk.hasInfo, hfiles, hk.pool]
      rfl
  | failed e i rest hd hm shuffled hs =>
    refine more _ _ ?_
    unfold Torrent.onFailed
    split
    · rfl
    · split
      · dsimp only
        split <;> rfl
      · rfl
  | collect p rest hd hm hi tcp f peerId room collected fs hh hc =>
    refine more _ _ ?_
    unfold Torrent.onCollected
    split
    · split <;> rfl
    all_goals rfl
  | found p rest hd hm info hi =>
    refine more _ _ ?_
    unfold Torrent.onReady
    split
    · split <;> rfl
    · rfl
  | write r ready hu hr' res fs hw =>
    rw [hr'] at h
    simpa using h

/-- C129: what the writer has been given, in order, is what the torrent was told of as got, in order: the same bytes with the same numbers, nothing left out, nothing twice. -/
theorem C129_order {w : World} {s : Sys} (h : Among w s) : content (s.written ++ s.ready) = gotten s.handled := by
  induction h with
  | init => rfl
  | step hr hst ih => exact write_order_step hr ih hst
  | disk _ fs ih => exact ih
  | wrote _ r ready hu hr fs up ih =>
    rw [hr] at ih
    simpa using ih

/-- C129: so it writes them in that order: at any time what it has written is the first part of that. -/
theorem C129_written {w : World} {s : Sys} (h : Among w s) : content s.written <+: gotten s.handled := by
  rw [← C129_order h, content_append]
  exact ⟨_, rfl⟩

/-- C129: no piece is got twice. -/
theorem C129_once {w : World} {s : Sys} (h : Among w s) : ((gotten s.handled).map Prod.snd).Nodup := by
  rw [← C129_order h]
  have e : (content (s.written ++ s.ready)).map Prod.snd = handed s := by
    rw [content, handed, List.map_map]
    rfl
  rw [e]
  rcases among_inv h with hf | ⟨info, n, hk⟩
  · simp [handed, hf.written, hf.ready]
  · have := hk.perm.nodup_iff.mpr List.nodup_range
    exact (List.nodup_append.mp (List.nodup_append.mp this).1).2.1

/-- C129: and in the whole program, for each torrent. -/
theorem C129_program {w : World} {Q : Info → Prop} {fs : FS} {n : Nat} {A : App} (h : ASteps w Q (App.init fs n) A) {s : Slot} (hs : s ∈ A.proc.slots) :
    content (s.sys.written ++ s.sys.ready) = gotten s.sys.handled ∧ ((gotten s.sys.handled).map Prod.snd).Nodup :=
  ⟨C129_order (C84_among h hs), C129_once (C84_among h hs)⟩

/-- A dead writer stays dead and takes nothing. -/
theorem dead_work {w : World} {P P' : Proc} (ham : ∀ s ∈ P.slots, SlotAmong w s) (h : PStep w P P') (hl : P.log ≠ none) (hr : P'.log ≠ none)
    (hn : P'.slots.length = P.slots.length) {k : Nat} {s : Slot} (hk : P.slots[k]? = some s) (hd : s.sys.writerUp = false) :
    ∃ s', P'.slots[k]? = some s' ∧ s'.sys.writerUp = false ∧ s'.sys.written = s.sys.written := by
  have other : ∀ {j : Nat} {s0 x : Slot}, P.slots[j]? = some s0 → (s0.sys.writerUp = false → x.sys.writerUp = false ∧ x.sys.written = s0.sys.written) →
      ∃ s', (P.slots.set j x)[k]? = some s' ∧ s'.sys.writerUp = false ∧ s'.sys.written = s.sys.written := by
    intro j s0 x hj hx
    by_cases hjk : j = k
    · subst hjk
      rw [hk] at hj
      cases hj
      exact ⟨x, List.getElem?_set_self (List.getElem?_eq_some_iff.mp hk).1, hx hd⟩
    · exact ⟨s, by rw [List.getElem?_set_ne hjk]; exact hk, hd, rfl⟩
  have busy : ∀ {j : Nat} {s0 x : Slot}, P.slots[j]? = some s0 → s0.parts ≠ none →
      s0.sys.writerUp = false → x.sys.writerUp = false ∧ x.sys.written = s0.sys.written := by
    intro j s0 x hj hp hd'
    rw [(ham s0 (List.mem_of_getElem? hj)).2 hp] at hd'
    cases hd'
  cases h with
  | start hl' => exact absurd hl' hl
  | log => exact ⟨s, hk, hd, rfl⟩
  | add => simp at hn
  | act j s0 t hj hst hw => exact other hj fun h' => ⟨(act_writer hst hw).1.trans h', hw⟩
  | begin j s0 r ready info ws hj hp hu => exact other hj fun h' => by rw [hu] at h'; cases h'
  | beginCrash j s0 r ready info hj hp hu hrd => exact other hj fun h' => by rw [hu] at h'; cases h'
  | part j s0 x xs fs hj hp => exact other hj (busy hj (by rw [hp]; simp))
  | partCrash j s0 x xs fs r ready hj hp hrd => exact other hj (busy hj (by rw [hp]; simp))
  | «end» j s0 r ready hj hp hrd => exact other hj (busy hj (by rw [hp]; simp))
  | stop => exact absurd rfl hr

theorem dead_step {w : World} {A A' : App} (ham : ∀ s ∈ A.proc.slots, SlotAmong w s) (h : AStep w A A') (hl : A.proc.log ≠ none)
    (hr : A'.proc.log ≠ none) {k : Nat} {s : Slot} (hk : A.proc.slots[k]? = some s) (hd : s.sys.writerUp = false) :
    ∃ s', A'.proc.slots[k]? = some s' ∧ s'.sys.writerUp = false ∧ s'.sys.written = s.sys.written := by
  cases h with
  | start hl' => exact absurd hl' hl
  | work _ P' hst hr' hn _ => exact dead_work ham hst hl hr' hn hk hd
  | add => exact ⟨s, by simpa [List.getElem?_append_left (List.getElem?_eq_some_iff.mp hk).1] using hk, hd, rfl⟩
  | track => exact ⟨s, hk, hd, rfl⟩
  | deliver _ j p s0 hd' hj =>
    by_cases hjk : j = k
    · subst hjk
      rw [hk] at hj
      cases hj
      exact ⟨_, List.getElem?_set_self (List.getElem?_eq_some_iff.mp hk).1, hd, rfl⟩
    · exact ⟨s, by simpa [List.getElem?_set_ne hjk] using hk, hd, rfl⟩
  | stick => exact ⟨s, hk, hd, rfl⟩
  | stop _ _ hr' => exact absurd hr' hr

/-- C129: once the writer of a torrent has died, nothing more of the torrent is written as long as the program runs, and all that is got from then on is kept waiting for it. -/
theorem C129_dead {w : World} {Q : Info → Prop} {fs : FS} {n : Nat} {run : Nat → App} (h : Run w Q fs n run) {k : Nat} {s : Slot}
    (hk : (run 0).proc.slots[k]? = some s) (hd : s.sys.writerUp = false) (i : Nat) :
    ∃ t, (run i).proc.slots[k]? = some t ∧ t.sys.writerUp = false ∧ t.sys.written = s.sys.written ∧
      gotten t.sys.handled = content s.sys.written ++ content t.sys.ready := by
  have : ∃ t, (run i).proc.slots[k]? = some t ∧ t.sys.writerUp = false ∧ t.sys.written = s.sys.written := by
    induction i with
    | zero => exact ⟨s, hk, hd, rfl⟩
    | succ i ih =>
      obtain ⟨t, t1, t2, t3⟩ := ih
      obtain ⟨u, u1, u2, u3⟩ := dead_step (slotAmong_steps (fun _ h => by cases h) (proc_steps (ainv_init fs n) (run_asteps h i))) (h.step i) (h.on i)
        (h.on (i + 1)) t1 t2
      exact ⟨u, u1, u2, u3.trans t3⟩
  obtain ⟨t, t1, t2, t3⟩ := this
  refine ⟨t, t1, t2, t3, ?_⟩
  rw [← C129_order (C84_among (run_asteps h i) (List.mem_of_getElem? t1)), content_append, t3]

/-! ### A writer that dies -/

/-- A torrent of one byte whose only file has no name. -/
def emptyName (sha : Bytes → Bytes) : Info := ⟨none, some 1, [], 1, sha [7]⟩

theorem emptyName_describes {sha : Bytes → Bytes} (hsha : ∀ b, (sha b).length = 20) : Describes sha (emptyName sha) [7] where
  total := rfl
  pieceLength := by show 0 < 1; decide
  hashes := by
    intro k hk
    have hk : k < pieceCount 1 1 := hk
    rw [show pieceCount 1 1 = 1 by decide] at hk
    obtain rfl : k = 0 := by omega
    show ((sha [7]).drop 0).take 20 = sha [7]
    rw [List.drop_zero, List.take_of_length_le (by rw [hsha]; decide)]

theorem emptyName_typed (sha : Bytes → Bytes) : Typed (emptyName sha) :=
  ⟨by show validUtf8 [] = true; decide +kernel, by show 1 < 2 ^ 64; decide, by intro n h; cases h; decide, by intro fs h; cases h⟩

theorem emptyName_writers {ε : Type} (m : Build) {piece : Bytes} {ws : List FileWriter}
    (e : (getFileWriters m [⟨[[]], 1⟩] piece 0 1 : Res ε _) = .ok ws) : ws ≠ [] := by
  have hn : (FileParser.new m piece.length 0 1 : Res ε FileParser) = .ok ⟨piece.length, 0, 0, 0, 0⟩ := by cases m <;> rfl
  have hb : (FileParser.updateRightFileBoundary m ⟨piece.length, 0, 0, 0, 0⟩ 1 : Res ε FileParser) = .ok ⟨piece.length, 0, 0, 0, 1⟩ := by cases m <;> rfl
  rw [getFileWriters, hn] at e
  simp only [Res.bind_ok, fileWritersLoop, hb, FileParser.isPieceInFile, Nat.zero_lt_one, decide_true, if_true] at e
  obtain ⟨p, -, e⟩ := bind_eq_ok e
  obtain ⟨a, -, e⟩ := bind_eq_ok e
  obtain ⟨b, -, e⟩ := bind_eq_ok e
  obtain ⟨i, -, e⟩ := bind_eq_ok e
  obtain ⟨j, -, e⟩ := bind_eq_ok e
  obtain ⟨part, -, e⟩ := bind_eq_ok e
  obtain ⟨more, -, e⟩ := bind_eq_ok e
  split at e <;> cases e <;> simp

/-- In a program whose torrents all have a file without a name: a writer that is done with a piece is dead. -/
def Hopeless (s : Slot) : Prop := (s.sys.written ≠ [] → s.sys.writerUp = false) ∧ ∀ ws, s.parts = some ws → ws ≠ [] ∧ ∀ x ∈ ws, x.path = [[]]

theorem hopeless_part {ε : Type} {cwd : Loc} {fs fs' : FS} {x : FileWriter} (hx : x.path = [[]]) : (x.writeToFilesystem cwd fs : Res ε Unit × FS) ≠ (.ok (), fs') := by
  intro h
  rw [FileWriter.writeToFilesystem, hx, if_pos (show (PathBuf.parse (joinPath [[]])).comps = [] by decide +kernel)] at h
  cases h

theorem hopeless_work {w : World} {P P' : Proc} (ham : ∀ s ∈ P.slots, SlotAmong w s) (hq : ∀ s ∈ P.slots, ∀ i, s.sys.torrent.info = some i → i = emptyName w.sha)
    (h : PStep w P P') (hh : ∀ s ∈ P.slots, Hopeless s) : ∀ s ∈ P'.slots, Hopeless s := by
  have put : ∀ {k : Nat} {x : Slot}, Hopeless x → ∀ s ∈ P.slots.set k x, Hopeless s := by
    intro k x hx s hs
    rcases List.mem_or_eq_of_mem_set hs with hs | rfl
    · exact hh s hs
    · exact hx
  cases h with
  | start => exact hh
  | log => exact hh
  | add hl body infoHash ha =>
    intro s hs
    rcases List.mem_append.mp hs with hs | hs
    · exact hh s hs
    · rw [List.mem_singleton.mp hs]
      exact ⟨fun e => absurd rfl e, fun ws e => by cases e⟩
  | act k s t hk hst hw =>
    obtain ⟨h1, h2⟩ := hh s (List.mem_of_getElem? hk)
    exact put ⟨fun e => (act_writer hst hw).1.trans (h1 (by rw [← hw]; exact e)), h2⟩
  | begin k s r ready info ws hk hp hu hr hi e =>
    have hm := List.mem_of_getElem? hk
    obtain rfl := hq s hm info hi
    obtain ⟨n, hkn⟩ := among_known (ham s hm).1 hi
    have hmem : r ∈ s.sys.written ++ s.sys.ready := by rw [hr]; simp
    obtain ⟨-, hfiles, hpl⟩ := hkn.ready r hmem
    have hf : r.files = [⟨[[]], 1⟩] := (Res.ok.inj hfiles).symm
    have hn := hkn.total
    have hn1 : n = 1 := by
      have e1 : (pieceTotal w.build (emptyName w.sha) : Res Unit Nat) = .ok 1 := by
        cases w.build <;> simp [pieceTotal, Info.getTotalLength, emptyName, stepByLen]
      rw [e1] at hn
      cases hn
      rfl
    have hx : r.idx = 0 := by
      have := idx_lt hkn hmem
      omega
    refine put ⟨(hh s hm).1, fun ws' ew => ?_⟩
    cases ew
    rw [hf, hx, hpl] at e
    exact ⟨emptyName_writers _ e, getFileWriters_paths w.build (fun p => p = [[]]) (by simp) e⟩
  | beginCrash k s r ready info hk hp hu hr => exact put ⟨fun _ => rfl, fun ws e => by cases e⟩
  | part k s x xs fs hk hp h =>
    exact absurd h (hopeless_part (((hh s (List.mem_of_getElem? hk)).2 _ hp).2 x (List.mem_cons_self ..)))
  | partCrash k s x xs fs r ready hk hp hr => exact put ⟨fun _ => rfl, fun ws e => by cases e⟩
  | «end» k s r ready hk hp hr => exact absurd rfl ((hh s (List.mem_of_getElem? hk)).2 _ hp).1
  | stop => exact fun s hs => by cases hs

theorem hopeless_steps {w : World} {P P' : Proc} (ham : ∀ s ∈ P.slots, SlotAmong w s) (hq : ∀ s ∈ P.slots, ∀ i, s.sys.torrent.info = some i → i = emptyName w.sha)
    (h : PSteps w (fun i => i = emptyName w.sha) P P') (hh : ∀ s ∈ P.slots, Hopeless s) :
    (∀ s ∈ P'.slots, Hopeless s) ∧ ∀ s ∈ P'.slots, ∀ i, s.sys.torrent.info = some i → i = emptyName w.sha := by
  induction h with
  | refl => exact ⟨hh, hq⟩
  | tail h1 hst hq' ih => exact ⟨hopeless_work (slotAmong_steps ham h1) ih.2 hst ih.1, hq'⟩

/-- C111 refuted, by paths: in every world, for a torrent of one byte whose only file has no name, there is a fair run in which no download fails and no worker dies, and from some
point on the torrent has got its piece and its writer is dead. -/
theorem C111_refuted_writer (w : World) (hsha : ∀ b, (w.sha b).length = 20) : Describes w.sha (emptyName w.sha) [7] ∧
    ∃ run s, Run w (fun i => i = emptyName w.sha) (cachedFs w.cwd (List.replicate 20 17) (emptyName w.sha)) 1 run ∧ Fair run 0 ∧ (∀ i, (run i).Free 0) ∧
    (run 0).proc.slots[0]? = some s ∧ s.sys.torrent.info = some (emptyName w.sha) ∧ Starts s.sys ∧
    (∀ i t, (run i).proc.slots[0]? = some t → downloadsFailed t.sys = 0 ∧ t.sys.lost = []) ∧
    ∃ i, ∀ j, i ≤ j → ∃ t, (run j).proc.slots[0]? = some t ∧ t.sys.writerUp = false ∧ (gotten t.sys.handled).map Prod.snd = [0] := by
  refine ⟨emptyName_describes hsha, ?_⟩
  obtain ⟨A, s, h1, h2, h3, h4, h5, h6, h7, h8, h9, h10, -, hn⟩ :=
    about_to_start_told w (emptyName_describes hsha) (by decide) (by decide) (emptyName_typed _) (Q := fun i => i = emptyName w.sha) rfl
  obtain ⟨run, r1, r2, r3, r4, r5⟩ := C111_served_runs hsha (emptyName_describes hsha)
    ⟨by decide, by show pieceCount 1 1 ≤ 2 ^ 32; decide, by show 1 * pieceCount 1 1 < 2 ^ 64; decide⟩ h1 h2 h3 h4 h5
  have hk : (run 0).proc.slots[0]? = some s := by rw [r2]; exact h4
  obtain ⟨i, hi⟩ := C111_rest r1 r3 r4 hk h5 (B := 0) (fun i t ht => Nat.le_of_eq ((r5 i t ht).1.trans h10))
  refine ⟨run, s, r1, r3, r4, hk, h5, h6, fun i t ht => ⟨(r5 i t ht).1.trans h10, (r5 i t ht).2.trans h7⟩, i, fun j hj => ?_⟩
  obtain ⟨t, t1, t2, t3, t4, t5, t6⟩ := hi j hj
  have hl : t.sys.lost = [] := (r5 j t t1).2.trans h7
  have hp := t6 h6 (by rw [hl]; decide)
  have hm := List.mem_of_getElem? t1
  have am := C84_among (run_asteps r1 j) hm
  have e : (gotten t.sys.handled).map Prod.snd = handed t.sys := by
    rw [← C129_order am, content, handed, List.map_map]
    rfl
  have hc : wrappedCount (emptyName w.sha) = 1 := by simp [wrappedCount, emptyName]
  rw [hl, List.append_nil, hc] at hp
  have hp : handed t.sys = [0] := List.perm_singleton.mp hp
  refine ⟨t, t1, ?_, by rw [e, hp]⟩
  cases hu : t.sys.writerUp with
  | false => rfl
  | true =>
    have := ((hopeless_steps (fun _ h => by cases h) (fun _ h => by cases h) (proc_steps (ainv_init _ _) (run_asteps r1 j)) (fun _ h => by cases h)).1 t hm).1
      (by intro e0; rw [handed, e0, t5 hu] at hp; cases hp)
    rw [hu] at this
    exact this

/-- C55 refuted, by a run: in every world, for a torrent of one byte whose only file has no name, there is a run of the program in which its writer is dead, although every peer has sent what
was asked for. -/
theorem C55_refuted_run (w : World) (hsha : ∀ b, (w.sha b).length = 20) : Describes w.sha (emptyName w.sha) [7] ∧
    ∃ run s, Run w (fun i => i = emptyName w.sha) (cachedFs w.cwd (List.replicate 20 17) (emptyName w.sha)) 1 run ∧
    (run 0).proc.slots[0]? = some s ∧ s.sys.writerUp = false ∧ downloadsFailed s.sys = 0 ∧ s.sys.lost = [] ∧ (gotten s.sys.handled).map Prod.snd = [0] := by
  obtain ⟨hd, run, s, r1, -, -, -, -, -, r5, i, hi⟩ := C111_refuted_writer w hsha
  obtain ⟨t, t1, t2, t3⟩ := hi i (Nat.le_refl _)
  exact ⟨hd, fun j => run (i + j), t, ⟨run_asteps r1 i, fun j => r1.on _, fun j => r1.step _, fun j => r1.infos _⟩, t1, t2, (r5 i t t1).1, (r5 i t t1).2, t3⟩

/-! ### Non-vacuity -/

/-- In every world there is a run of the program in which both pieces of a torrent have been got and given to the writer. -/
example (w : World) (hsha : ∀ b, (w.sha b).length = 20) : ∃ A s, ASteps w (Beside (threeBytes w.sha)) (App.init (cachedFs w.cwd (List.replicate 20 17) (threeBytes w.sha)) 1) A ∧
    s ∈ A.proc.slots ∧ Among w s.sys ∧ (gotten s.sys.handled).length = 2 ∧ ((gotten s.sys.handled).map Prod.snd).Perm [0, 1] ∧
    (s.sys.writerUp = true → content s.sys.written = gotten s.sys.handled) := by
  obtain ⟨A, s, h1, h2, h3, h4, h5, h6, h7, h8, h9, h10, -, hn⟩ :=
    about_to_start_told w (threeBytes_describes hsha) (by decide) (by decide) (threeBytes_typed _) (Q := Beside (threeBytes w.sha)) (.inl rfl)
  obtain ⟨run, r1, r2, r3, r4, r5⟩ := C111_served_runs hsha (threeBytes_describes hsha)
    ⟨by decide, by show pieceCount 3 2 ≤ 2 ^ 32; decide, by show 2 * pieceCount 3 2 < 2 ^ 64; decide⟩ h1 h2 h3 h4 h5
  have hk : (run 0).proc.slots[0]? = some s := by rw [r2]; exact h4
  obtain ⟨i, hi⟩ := C111_rest r1 r3 r4 hk h5 (B := 0) (fun i t ht => Nat.le_of_eq ((r5 i t ht).1.trans h10))
  obtain ⟨t, t1, t2, t3, t4, t5, t6⟩ := hi i (Nat.le_refl _)
  have hl : t.sys.lost = [] := (r5 i t t1).2.trans h7
  have hp := t6 h6 (by rw [hl]; decide)
  have am := C84_among (run_asteps r1 i) (List.mem_of_getElem? t1)
  have e : (gotten t.sys.handled).map Prod.snd = handed t.sys := by
    rw [← C129_order am, content, handed, List.map_map]
    rfl
  have hc : wrappedCount (threeBytes w.sha) = 2 := by simp [wrappedCount, threeBytes]
  rw [hl, List.append_nil, hc] at hp
  refine ⟨run i, t, run_asteps r1 i, List.mem_of_getElem? t1, am, ?_, by rw [e]; exact hp, fun hu => ?_⟩
  · rw [← List.length_map (f := Prod.snd), e]
    exact hp.length_eq
  · rw [← C129_order am, t5 hu, List.append_nil]

/-- C129_dead: such a run. -/
example (w : World) (hsha : ∀ b, (w.sha b).length = 20) : ∃ Q fs run s, Run w Q fs 1 run ∧ (run 0).proc.slots[0]? = some s ∧ s.sys.writerUp = false ∧ s.sys.handled ≠ [] := by
  obtain ⟨-, run, s, h1, h2, h3, -, -, h4⟩ := C55_refuted_run w hsha
  exact ⟨_, _, run, s, h1, h2, h3, fun e => by rw [e] at h4; cases h4⟩

end RustBit
