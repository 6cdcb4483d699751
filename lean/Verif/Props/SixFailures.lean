/-
C120: the bound of six failures of a peer is attained.
-/
import Verif.Props.GoodPeer

namespace RustBit
open Spec

/-- The reports in the mailbox of a torrent with metadata can be handled one after the other. -/
theorem handle_failed {w : World} {info : Info} {e : Bytes} : ∀ (l : List Nat) {s : Sys}, Among w s → s.torrent.info = some info → s.mail = l.map (Mail.failed e) →
    ∃ t, Steps w s t ∧ t.handled = s.handled ++ l.map (Mail.failed e) ∧ t.mail = [] := by
  intro l
  induction l with
  | nil => intro s _ _ hm; exact ⟨s, .refl s, by simp, hm⟩
  | cons i l ih =>
    intro s hr hi hm
    obtain ⟨n, hk⟩ := among_known hr hi
    have st := Step.failed (w := w) s e i (l.map (Mail.failed e)) hk.up hm _ (.refl _)
    obtain ⟨t, h1, h2, h3⟩ := ih (.step hr st) (known_step hk st).hasInfo rfl
    refine ⟨t, Steps.trans (.tail (.refl _) st) h1, ?_, h3⟩
    rw [h2]
    simp [Sys.after]

/-- The metadata of five bytes, each a piece of its own. -/
def fivePieces (sha : Bytes → Bytes) : Info := ⟨none, some 5, b!"a", 1, sha [1] ++ sha [2] ++ sha [3] ++ sha [4] ++ sha [5]⟩

theorem fivePieces_typed (sha : Bytes → Bytes) : Typed (fivePieces sha) :=
  ⟨by show validUtf8 b!"a" = true; decide +kernel, by show 1 < 2 ^ 64; decide, by intro n h; cases h; decide, by intro fs h; cases h⟩

theorem fivePieces_total {ε : Type} (m : Build) (sha : Bytes → Bytes) : (pieceTotal m (fivePieces sha) : Res ε Nat) = .ok 5 := by
  cases m <;> simp [pieceTotal, Info.getTotalLength, fivePieces, stepByLen]

/-- C120: six failures of a peer is what it may come to although ten others have been named, none of them has failed, and none has been named twice: five downloads
are asked of it before the first of them fails, and one more when this is reported. -/
theorem C120_attained (w : World) (hash : Bytes) (hh : 2 < hash.length) : ∃ fs s, Steps w (Sys.init hash fs) s ∧ NamedOnce s.handled ∧
    (s.torrent.peers.length = 11 ∧ failuresSince (peerAt 0).endpoint s.handled = some 6 ∧ downloadsFailed s = 6) ∧
    (∀ e, e ≠ (peerAt 0).endpoint → failures e s.handled = 0) ∧ GoodPeer s.handled := by
  have hst := run_knownAt (w := w) (infoHash := hash) (info := fivePieces w.sha) (n := 5) hh (fivePieces_typed _) (cachedFs_cached _ _ _) (fivePieces_total _ _) 9 (by decide)
  generalize cachedFs w.cwd hash (fivePieces w.sha) = fs at hst
  have s1 := Step.announce (w := w) (knownAt fs hash (fivePieces w.sha) 5 10) _ (peerAt 10) (peerAt_found _ (by decide))
  have s2 := Step.found (w := w) { knownAt fs hash (fivePieces w.sha) 5 10 with mail := [.found (peerAt 10)] } (peerAt 10) [] rfl rfl _ rfl
    (List.replicate 5 ((knownAt fs hash (fivePieces w.sha) 5 10).torrent.addPeer (peerAt 10)).peers) rfl (by intro l hl; rw [List.eq_of_mem_replicate hl])
  let peers (k : Nat) : List TPeer := ⟨(peerAt 0).endpoint, 0, k⟩ :: (List.range 10).map fun i => TPeer.new (peerAt (i + 1)).endpoint
  let log : List Mail := (List.range 11).map fun i => .found (peerAt i)
  let req (i : Nat) : Request := ⟨(peerAt 0).endpoint, fivePieces w.sha, i⟩
  let bad (i : Nat) : Mail := .failed (peerAt 0).endpoint i
  let at0 (k : Nat) (queue busy : List Request) (mail more : List Mail) : Sys :=
    { Sys.init hash fs with torrent := ⟨some (fivePieces w.sha), hash, peers k, some [], true⟩, queue, busy, mail, handled := log ++ more }
  have e2 : (({ knownAt fs hash (fivePieces w.sha) 5 10 with mail := [.found (peerAt 10)] } : Sys).after (.found (peerAt 10)) []
      (((knownAt fs hash (fivePieces w.sha) 5 10).torrent.addPeer (peerAt 10)).onReady (fivePieces w.sha)
        (List.replicate 5 ((knownAt fs hash (fivePieces w.sha) 5 10).torrent.addPeer (peerAt 10)).peers))) = at0 0 [req 0, req 1, req 2, req 3, req 4] [] [] [] := rfl
  have hd : ∀ i, downloadPiece w.sha w.build (dialOf (req i).endpoint (fun _ => none)) 0 [] (req i).info (req i).idx = .err .stream := by
    intro i
    have : parseSocketV4 (peerAt 0).endpoint = some ([1, 2, 3, 4], 0) := by decide +kernel
    show downloadPiece w.sha w.build (dialOf (peerAt 0).endpoint (fun _ => none)) 0 [] (req i).info (req i).idx = .err .stream
    rw [dialOf, this]
    rfl
  have t0 := Step.take (w := w) (at0 0 [req 0, req 1, req 2, req 3, req 4] [] [] []) (req 0) [req 1, req 2, req 3, req 4] rfl (by show 0 < 5; decide)
  have t1 := Step.take (w := w) (at0 0 [req 1, req 2, req 3, req 4] [req 0] [] []) (req 1) [req 2, req 3, req 4] rfl (by show 1 < 5; decide)
  have t2 := Step.take (w := w) (at0 0 [req 2, req 3, req 4] [req 0, req 1] [] []) (req 2) [req 3, req 4] rfl (by show 2 < 5; decide)
  have t3 := Step.take (w := w) (at0 0 [req 3, req 4] [req 0, req 1, req 2] [] []) (req 3) [req 4] rfl (by show 3 < 5; decide)
  have t4 := Step.take (w := w) (at0 0 [req 4] [req 0, req 1, req 2, req 3] [] []) (req 4) [] rfl (by show 4 < 5; decide)
  have t5 := Step.finishErr (w := w) (at0 0 [] [req 0, req 1, req 2, req 3, req 4] [] []) [] [req 1, req 2, req 3, req 4] (req 0) rfl (fun _ => none) 0 [] _ (hd 0)
  have hup : TPeer.updateFailed (peers 0) (peerAt 0).endpoint = peers 1 := by decide +kernel
  have t6 := Step.failed (w := w) (at0 0 [] [req 1, req 2, req 3, req 4] [bad 0] []) (peerAt 0).endpoint 0 [] rfl rfl (peers 1) (hup ▸ .refl _)
  have e6 : (at0 0 [] [req 1, req 2, req 3, req 4] [bad 0] []).after (bad 0) [] ((at0 0 [] [req 1, req 2, req 3, req 4] [bad 0] []).torrent.onFailed (peers 1) (peerAt 0).endpoint 0) =
      at0 1 [req 0] [req 1, req 2, req 3, req 4] [] [bad 0] := by
    show ({ Sys.init hash fs with
      torrent := ⟨some (fivePieces w.sha), hash, TPeer.updateFailed (peers 0) (peerAt 0).endpoint, some [], true⟩
      queue := [req 0], busy := [req 1, req 2, req 3, req 4], handled := (log ++ []) ++ [bad 0] } : Sys) = _
    rw [hup]
    rfl
  have t7 := Step.take (w := w) (at0 1 [req 0] [req 1, req 2, req 3, req 4] [] [bad 0]) (req 0) [] rfl (by show 4 < 5; decide)
  have f1 := Step.finishErr (w := w) (at0 1 [] [req 1, req 2, req 3, req 4, req 0] [] [bad 0]) [] [req 2, req 3, req 4, req 0] (req 1) rfl (fun _ => none) 0 [] _ (hd 1)
  have f2 := Step.finishErr (w := w) (at0 1 [] [req 2, req 3, req 4, req 0] [bad 1] [bad 0]) [] [req 3, req 4, req 0] (req 2) rfl (fun _ => none) 0 [] _ (hd 2)
  have f3 := Step.finishErr (w := w) (at0 1 [] [req 3, req 4, req 0] [bad 1, bad 2] [bad 0]) [] [req 4, req 0] (req 3) rfl (fun _ => none) 0 [] _ (hd 3)
  have f4 := Step.finishErr (w := w) (at0 1 [] [req 4, req 0] [bad 1, bad 2, bad 3] [bad 0]) [] [req 0] (req 4) rfl (fun _ => none) 0 [] _ (hd 4)
  have f5 := Step.finishErr (w := w) (at0 1 [] [req 0] [bad 1, bad 2, bad 3, bad 4] [bad 0]) [] [] (req 0) rfl (fun _ => none) 0 [] _ (hd 0)
  have u6 : Steps w (Sys.init hash fs) (at0 1 [req 0] [req 1, req 2, req 3, req 4] [] [bad 0]) :=
    e6 ▸ .tail (.tail (.tail (.tail (.tail (.tail (.tail (e2 ▸ .tail (.tail hst s1) s2) t0) t1) t2) t3) t4) t5) t6
  have u7 : Steps w (Sys.init hash fs) (at0 1 [] [] ([1, 2, 3, 4, 0].map (Mail.failed (peerAt 0).endpoint)) [bad 0]) :=
    .tail (.tail (.tail (.tail (.tail (.tail u6 t7) f1) f2) f3) f4) f5
  obtain ⟨t, h1, h2, h3⟩ := handle_failed (w := w) [1, 2, 3, 4, 0] (among_of u7) rfl rfl
  have hlog : t.handled = log ++ [bad 0, bad 1, bad 2, bad 3, bad 4, bad 0] := by rw [h2]; show (log ++ [bad 0]) ++ _ = _; rw [List.append_assoc]; rfl
  refine ⟨fs, t, u7.trans h1, ?_, ⟨?_, ?_, ?_⟩, ?_, ?_⟩
  · rw [hlog]
    show List.Nodup _
    decide +kernel
  · rw [C47_counters (among_of (u7.trans h1)), hlog]
    decide +kernel
  · rw [hlog]; decide +kernel
  · rw [downloadsFailed, h3, hlog]; decide +kernel
  · intro e he
    rw [hlog, failures, List.countP_eq_zero]
    intro m hm
    rcases List.mem_append.mp hm with hm | hm
    · obtain ⟨i, -, rfl⟩ := List.mem_map.mp hm
      simp
    · simp only [List.mem_cons, List.not_mem_nil, or_false] at hm
      rcases hm with rfl | rfl | rfl | rfl | rfl | rfl <;> simp [bad, Ne.symm he]
  · rw [hlog]
    exact ⟨(peerAt 1).endpoint, 0, by decide +kernel, by decide⟩

end RustBit
