/-
C48, exactly: which states of a torrent can be followed by a panic of its actor.
-/
import Verif.Spec.Panics
import Verif.Props.LogOthers

namespace RustBit
open Spec

theorem usum_debug_exactly (l : List Nat) : (usum .debug l : Res Unit Nat) = if l.sum < 2 ^ 64 then .ok l.sum else .panic := by
  split
  · rename_i h
    exact usum_of_lt _ _ h
  · rename_i h
    have dead : ∀ l : List Nat, l.foldl (fun acc x => acc >>= fun a => uadd .debug a x) (.panic : Res Unit Nat) = .panic := by
      intro l
      induction l with
      | nil => rfl
      | cons x l ih => exact ih
    have key : ∀ (l : List Nat) (a : Nat), 2 ^ 64 ≤ a + l.sum → a < 2 ^ 64 →
        l.foldl (fun acc x => acc >>= fun a => uadd .debug a x) (.ok a : Res Unit Nat) = .panic := by
      intro l
      induction l with
      | nil => intro a h1 h2; simp at h1; omega
      | cons x l ih =>
        intro a h1 h2
        rw [List.sum_cons] at h1
        rw [List.foldl_cons]
        simp only [Res.bind_ok, uadd]
        split
        · exact ih (a + x) (by omega) (by assumption)
        · exact dead l
    exact key l 0 (by omega) (by decide)

/-- Counting the pieces fails exactly for metadata that cannot be used. -/
theorem pieceTotal_exactly (m : Build) (i : Info) :
    (Unusable m i ∧ (pieceTotal m i : Res Unit Nat) = .panic) ∨ (¬ Unusable m i ∧ ∃ n, (pieceTotal m i : Res Unit Nat) = .ok n) := by
  have step : ∀ n, (stepByLen n i.pieceLength : Res Unit Nat) = if i.pieceLength = 0 then .panic else .ok ((n + i.pieceLength - 1) / i.pieceLength) := by
    intro n
    split
    · rename_i h; rw [h]; rfl
    · exact stepByLen_spec _ _ (by omega)
  have fin : ∀ n, (i.getTotalLength m : Res Unit Nat) = .ok n → ¬ (i.files = none ∧ i.length = none) →
      ¬ (m = .debug ∧ ∃ fs, i.files = some fs ∧ 2 ^ 64 ≤ (fs.map File.length).sum) →
      (Unusable m i ∧ (pieceTotal m i : Res Unit Nat) = .panic) ∨ (¬ Unusable m i ∧ ∃ n, (pieceTotal m i : Res Unit Nat) = .ok n) := by
    intro n hn h1 h2
    have e : (pieceTotal m i : Res Unit Nat) = stepByLen n i.pieceLength := by rw [pieceTotal, hn]; rfl
    by_cases h0 : i.pieceLength = 0
    · exact .inl ⟨.inl h0, by rw [e, step, if_pos h0]⟩
    · exact .inr ⟨fun h => h.elim h0 (fun h => h.elim h1 h2), _, by rw [e, step, if_neg h0]⟩
  cases hf : i.files with
  | none =>
    cases hl : i.length with
    | none => exact .inl ⟨.inr (.inl ⟨hf, hl⟩), by rw [pieceTotal, Info.getTotalLength, hf, hl]; rfl⟩
    | some n => exact fin n (by rw [Info.getTotalLength, hf, hl]) (by rw [hl]; simp) (by rintro ⟨-, fs, h, -⟩; rw [hf] at h; cases h)
  | some fs =>
    have hg : (i.getTotalLength m : Res Unit Nat) = usum m (fs.map File.length) := by rw [Info.getTotalLength, hf]
    cases m with
    | release =>
      exact fin _ (hg.trans (usum_release _)) (by rw [hf]; simp) (by rintro ⟨h, -⟩; cases h)
    | debug =>
      rw [usum_debug_exactly] at hg
      split at hg
      · rename_i hlt
        refine fin _ hg (by rw [hf]; simp) ?_
        rintro ⟨-, fs', h, hge⟩
        rw [hf] at h
        cases h
        omega
      · rename_i hge
        exact .inl ⟨.inr (.inr ⟨rfl, fs, hf, by omega⟩), by rw [pieceTotal, hg]; rfl⟩

/-- What `collect_info` gives, and whether the handler panics on it. -/
theorem collect_exactly {w : World} {fs : FS} {infoHash : Bytes} (hlen : 2 < infoHash.length) (dial : Dial) (f : Nat) (peerId : Bytes) (room : Nat)
    (t : Torrent) :
    Fatal w fs dial f peerId infoHash ↔
      (t.onCollected w.build (collectInfo w.build w.cwd fs dial f peerId infoHash room : Res Unit (Option Info) × FS).1).res = .panic := by
  have hgot : ∀ i, (t.onCollected w.build (.ok (some i))).res = .panic ↔ Unusable w.build i := by
    intro i
    rcases pieceTotal_exactly w.build i with ⟨h, e⟩ | ⟨h, n, e⟩
    · simp [Torrent.onCollected, e, h]
    · simp [Torrent.onCollected, e, h]
  have hD : (∃ c, fs (w.cwd ++ [b!"downloads"]) = some (.file c)) ∨ ∃ fs1, fs.createDirAll w.cwd [b!"downloads"] = (.ok (), fs1) ∧
      fs1 (w.cwd ++ [b!"downloads"]) = some .dir ∧ fs1 (cacheLoc w.cwd infoHash) = fs (cacheLoc w.cwd infoHash) ∧
      readFile fs (w.cwd ++ [b!"downloads"]) = none := by
    cases hd : fs (w.cwd ++ [b!"downloads"]) with
    | none => exact .inr ⟨_, createDirAll_absent hd, by simp [FS.set], by simp [FS.set, cacheLoc_ne], by rw [readFile, hd]⟩
    | some x => cases x with
      | file c => exact .inl ⟨c, rfl⟩
      | dir => exact .inr ⟨fs, createDirAll_exists hd, hd, rfl, by rw [readFile, hd]⟩
  have hunf : ∀ fs1, fs.createDirAll w.cwd [b!"downloads"] = (.ok (), fs1) → fs1 (w.cwd ++ [b!"downloads"]) = some .dir →
      (collectInfo w.build w.cwd fs dial f peerId infoHash room : Res Unit (Option Info) × FS) = collectInfo w.build w.cwd fs1 dial f peerId infoHash room := by
    intro fs1 h1 h2
    unfold collectInfo
    rw [downloads_comps]
    have e : (PathBuf.mk false [b!"downloads"] false).base w.cwd = w.cwd := rfl
    rw [e, h1, createDirAll_exists h2]
  rcases hD with ⟨c, hc⟩ | ⟨fs1, h1, h2, h3, h4⟩
  · have e : (collectInfo w.build w.cwd fs dial f peerId infoHash room : Res Unit (Option Info) × FS) = (.panic, fs) := by
      unfold collectInfo
      rw [downloads_comps]
      have e : (PathBuf.mk false [b!"downloads"] false).base w.cwd = w.cwd := rfl
      rw [e, createDirAll_blocked hc]
    rw [e]
    exact ⟨fun _ => rfl, fun _ => .inl ⟨c, by rw [readFile, hc]⟩⟩
  · rw [hunf fs1 h1 h2, collectInfo_exists h2, Info.fromFile, readToString_cache hlen h2, show readFile fs1 (cacheLoc w.cwd infoHash) = readFile fs (cacheLoc w.cwd infoHash) by rw [readFile, readFile, h3]]
    have hno : ¬ ∃ c, readFile fs (w.cwd ++ [b!"downloads"]) = some c := by rw [h4]; simp
    have hloc : w.cwd ++ [b!"downloads", percentEncode infoHash] = cacheLoc w.cwd infoHash := rfl
    unfold Fatal HasText Poisoned
    rw [hloc]
    have fetched : ∀ {R : Option Bytes}, (¬ ∃ c, R = some c ∧ validUtf8 c = true) →
        (¬ ∃ c, R = some c ∧ validUtf8 c = true ∧ ∀ i, Info.fromJson c = some i → Unusable w.build i) →
        (((∃ c, readFile fs (w.cwd ++ [b!"downloads"]) = some c) ∨
          (∃ c, R = some c ∧ validUtf8 c = true ∧ ∀ i, Info.fromJson c = some i → Unusable w.build i) ∨
          ((¬ ∃ c, R = some c ∧ validUtf8 c = true) ∧ (getInfo w.build dial f peerId infoHash = .panic ∨
            ∃ i, getInfo w.build dial f peerId infoHash = .ok i ∧ (Unusable w.build i ∨ fs (cacheLoc w.cwd infoHash) = some .dir)))) ↔
        (t.onCollected w.build (match getInfo w.build dial f peerId infoHash with
          | .ok i => match i.save w.cwd fs1 (cachePath infoHash) room with
            | (.ok (), fs2) => (.ok (some i), fs2)
            | (.err _, fs2) => (.ok (some i), fs2)
            | (.panic, fs2) => (.panic, fs2)
            | (.hang, fs2) => (.hang, fs2)
          | .err _ => (.ok none, fs1)
          | .panic => (.panic, fs1)
          | .hang => (.hang, fs1) : Res Unit (Option Info) × FS).1).res = .panic) := by
      intro R hR hR'
      cases hg : getInfo w.build dial f peerId infoHash with
      | panic => exact ⟨fun _ => rfl, fun _ => .inr (.inr ⟨hR, .inl rfl⟩)⟩
      | err e =>
        refine ⟨fun h => ?_, fun h => by cases h⟩
        rcases h with h | h | ⟨-, h | ⟨i, h, -⟩⟩
        · exact absurd h hno
        · exact absurd h hR'
        · cases h
        · cases h
      | hang =>
        refine ⟨fun h => ?_, fun h => by cases h⟩
        rcases h with h | h | ⟨-, h | ⟨i, h, -⟩⟩
        · exact absurd h hno
        · exact absurd h hR'
        · cases h
        · cases h
      | ok i =>
        obtain ⟨s1, s2⟩ := save_cache hlen h2 i room
        rw [h3] at s1 s2
        by_cases hdir : fs (cacheLoc w.cwd infoHash) = some .dir
        · simp only [s1 hdir]
          exact ⟨fun _ => rfl, fun _ => .inr (.inr ⟨hR, .inr ⟨i, rfl, .inr hdir⟩⟩)⟩
        · obtain ⟨fs', -, e⟩ := s2 hdir
          have e' : (match i.save w.cwd fs1 (cachePath infoHash) room with
            | (.ok (), fs2) => (.ok (some i), fs2)
            | (.err _, fs2) => (.ok (some i), fs2)
            | (.panic, fs2) => (.panic, fs2)
            | (.hang, fs2) => (.hang, fs2) : Res Unit (Option Info) × FS) = (.ok (some i), fs') := by
            rw [e]
            split <;> split at * <;> simp_all
          simp only [e']
          rw [hgot]
          constructor
          · rintro (h | h | ⟨-, h | ⟨i', h, h'⟩⟩)
            · exact absurd h hno
            · exact absurd h hR'
            · cases h
            · cases h
              exact h'.resolve_right hdir
          · exact fun h => .inr (.inr ⟨hR, .inr ⟨i, rfl, .inl h⟩⟩)
    cases hr : readFile fs (cacheLoc w.cwd infoHash) with
    | some c =>
      have hfile : fs (cacheLoc w.cwd infoHash) ≠ some .dir := by
        intro e
        rw [readFile, e] at hr
        cases hr
      rw [Option.bind_some]
      by_cases hv : validUtf8 c = true
      · rw [if_pos hv]
        cases hj : Info.fromJson c with
        | none =>
          refine ⟨fun _ => ?_, fun _ => .inr (.inl ⟨c, rfl, hv, fun i h => by rw [hj] at h; cases h⟩)⟩
          simp [Torrent.onCollected, hj]
        | some i =>
          simp only [hj]
          rw [hgot]
          constructor
          · rintro (h | ⟨c', h, -, h'⟩ | ⟨h, -⟩)
            · exact absurd h hno
            · cases h
              exact h' i hj
            · exact absurd ⟨c, rfl, hv⟩ h
          · exact fun h => .inr (.inl ⟨c, rfl, hv, fun i' e => by rw [hj] at e; cases e; exact h⟩)
      · rw [if_neg hv]
        simp only []
        exact fetched (by rintro ⟨c', h, h'⟩; cases h; exact hv h') (by rintro ⟨c', h, h', -⟩; cases h; exact hv h')
    | none =>
      rw [Option.bind_none]
      simp only []
      exact fetched (by rintro ⟨c', h, -⟩; cases h) (by rintro ⟨c', h, -⟩; cases h)

/-- C48, exactly: in every reachable state of a torrent whose actor has not ended, the next step can be a panic of the actor if and only if it has no metadata yet, the
first message in its mailbox is a new peer, and getting the metadata with that peer, on the disk as it is, can be fatal. -/
theorem C48_exactly {w : World} {s : Sys} (hr : Among w s) (hlen : 2 < s.torrent.infoHash.length) (hd : s.down = false) :
    (∃ t, Step w s t ∧ t.down = true) ↔
      s.torrent.info = none ∧ ∃ p rest tcp f peerId, s.mail = .found p :: rest ∧ Fatal w s.fs (dialOf p.endpoint tcp) f peerId s.torrent.infoHash := by
  have hres : ∀ (msg : Mail) (rest : List Mail) (h : Outcome), (s.after msg rest h).down = true ↔ h.res ≠ .ok () := by
    intro msg rest h
    unfold Sys.after
    cases h.res <;> simp
  constructor
  · rintro ⟨t, hst, ht⟩
    obtain ⟨hi, p, tcp, f, peerId, room, collected, fs, hm, hc, -⟩ := C48_only_metadata_partial hr hd hst ht
    refine ⟨hi, ?_⟩
    cases hst with
    | announce | take | finishOk | finishErr | finishPanic | write => rw [hd] at ht; cases ht
    | success _ _ _ rest _ hm' => rw [hm'] at hm; cases hm
    | failed _ _ rest _ hm' => rw [hm'] at hm; cases hm
    | found _ _ _ _ _ hi' => rw [hi] at hi'; cases hi'
    | collect p rest hd' hm' hi' tcp f peerId room collected fs hh hc =>
      refine ⟨p, rest, tcp, f, peerId, hm', (collect_exactly hlen _ _ _ room (s.torrent.addPeer p)).mpr ?_⟩
      rw [hc]
      have ht : (s.after (.found p) rest ((s.torrent.addPeer p).onCollected w.build collected)).down = true := ht
      rw [hres] at ht
      cases collected with
      | hang => exact absurd rfl hh
      | panic => rfl
      | err e =>
        exfalso
        unfold collectInfo at hc
        repeat' split at hc
        all_goals cases hc
      | ok o =>
        cases o with
        | none => exact absurd rfl ht
        | some i =>
          rcases pieceTotal_exactly w.build i with ⟨-, e⟩ | ⟨-, n, e⟩
          · simp [Torrent.onCollected, e]
          · simp [Torrent.onCollected, e] at ht
  · rintro ⟨hi, p, rest, tcp, f, peerId, hm, hfat⟩
    have hp := (collect_exactly hlen _ f peerId 0 (s.torrent.addPeer p)).mp hfat
    generalize hc : (collectInfo w.build w.cwd s.fs (dialOf p.endpoint tcp) f peerId s.torrent.infoHash 0 : Res Unit (Option Info) × FS) = c at hp
    refine ⟨_, .collect s p rest hd hm hi tcp f peerId 0 c.1 c.2 ?_ hc, ?_⟩
    · intro e
      rw [e] at hp
      cases hp
    · show (s.after (.found p) rest ((s.torrent.addPeer p).onCollected w.build c.1)).down = true
      rw [hres, hp]
      simp

/-- C48: with an ordinary file in the place of the directory `downloads` a new torrent can end with its first peer, whatever that peer does; with an empty disk and a peer
that cannot be reached it cannot. -/
example (w : World) (c : Bytes) :
    let s (fs : FS) : Sys := { Sys.init hash7 fs with mail := [.found peer0] }
    (∃ t, Step w (s fun l => if l = w.cwd ++ [b!"downloads"] then some (.file c) else none) t ∧ t.down = true) ∧
    ¬ Fatal w (fun _ => none) (dialOf peer0.endpoint fun _ => none) 0 [] hash7 := by
  refine ⟨(C48_exactly (.step (.init hash7 _) (.announce _ _ peer0 peer0_found)) (by show 2 < hash7.length; decide) rfl).mpr
    ⟨rfl, peer0, [], fun _ => none, 0, [], rfl, .inl ⟨c, by simp [readFile, Sys.init]⟩⟩, ?_⟩
  have hd : dialOf peer0.endpoint (fun _ => none) = .refused := by
    have : parseSocketV4 peer0.endpoint = some ([1, 2, 3, 4], 80) := by decide +kernel
    rw [dialOf, this]
  rintro (⟨c, h⟩ | ⟨c, h, -⟩ | ⟨-, h | ⟨i, h, -⟩⟩)
  · cases h
  · cases h
  · rw [hd] at h
    cases h
  · rw [hd] at h
    cases h

end RustBit
