/-
C123: An attempt knows nothing of what is to come, and nothing is lost by schedules.
-/
import Verif.Proofs.Dialogue

namespace RustBit
open Spec

/-- What holds of everything that comes of schedules holds of everything that comes of listeners, and the other way round. -/
theorem meets_iff {ρ : Type} {T : Dialogue (ρ × Peer)} {F : Net → ρ × Peer} (h : Interactive T F) (r : ρ × Peer) :
    (∃ σ : Listener, (T.meet σ [] []).1 = r) ↔ ∃ net, F net = r := by
  constructor
  · rintro ⟨σ, rfl⟩
    refine ⟨fun i => (T.meet σ [] []).2.1[i]?.getD ⟨[], .fail⟩, ?_⟩
    have := Dialogue.meet_run σ T [] [] (fun i => (T.meet σ [] []).2.1[i]?.getD ⟨[], .fail⟩) (by
      intro i e he; simp only [he, Option.getD_some])
    rw [List.length_nil, h] at this
    exact congrArg Prod.fst this
  · rintro ⟨net, rfl⟩
    refine ⟨fun _ past => net past.length, ?_⟩
    have hpast : ∀ (T : Dialogue (ρ × Peer)) (past : List NetEv) (w : List Bytes), (∀ i e, past[i]? = some e → net i = e) →
        ∀ i e, (T.meet (fun _ past => net past.length) past w).2.1[i]? = some e → net i = e := by
      intro T
      induction T with
      | over _ => intro past w hp; exact hp
      | call says next ih =>
        intro past w hp
        refine ih _ _ _ ?_
        intro i e he
        by_cases hi : i < past.length
        · rw [List.getElem?_append_left hi] at he; exact hp i e he
        · rw [List.getElem?_append_right (by omega)] at he
          by_cases hz : i - past.length = 0
          · rw [hz] at he
            have : i = past.length := by omega
            subst this
            simpa using he
          · rw [List.getElem?_eq_none (by simp; omega)] at he; exact absurd he (by simp)
    have := Dialogue.meet_run (fun _ past => net past.length) T [] [] net (hpast T [] [] (by simp))
    rw [List.length_nil, h] at this
    exact (congrArg Prod.fst this).symm

/-- **C123** The attempt to get a piece is a program at a socket: one that learns of each call only what came of it, and writes what it writes for every schedule, with
the same result after the same number of calls. Peers that pay attention to it, and do whatever they like upon whatever they hear, bring about just what schedules
bring about. -/
theorem C123_piece (sha : Bytes → Bytes) (m : Build) (f : Nat) (peerId : Bytes) (info : Info) (idx : Nat) :
    ∃ T : Dialogue (Res PeerManagerError Bytes × Peer), Interactive T (fun net => downloadRun sha m net f peerId info idx) ∧
      ∀ r, (∃ σ : Listener, (T.meet σ [] []).1 = r) ↔ ∃ net, downloadRun sha m net f peerId info idx = r := by
  obtain ⟨T, hT⟩ := played_downloadRun sha m f peerId info idx
  exact ⟨T, hT, meets_iff hT⟩

/-- **C123** The same of the attempt to get the metadata. -/
theorem C123_metadata (m : Build) (f : Nat) (peerId infoHash : Bytes) :
    ∃ T : Dialogue (Res PeerManagerError Info × Peer), Interactive T (fun net => getInfoRun m net f peerId infoHash) ∧
      ∀ r, (∃ σ : Listener, (T.meet σ [] []).1 = r) ↔ ∃ net, getInfoRun m net f peerId infoHash = r := by
  obtain ⟨T, hT⟩ := played_getInfo m f peerId infoHash
  exact ⟨T, hT, meets_iff hT⟩

/-- **C123** For every program at a socket, what a listener hears and answers is what the client writes and receives with the schedule of what happened: the listener
answers as it is told to, the schedule is nothing but its answers, and what has been written is what is heard. -/
theorem C123_listener {ρ : Type} (T : Dialogue (ρ × Peer)) (F : Net → ρ × Peer) (h : Interactive T F) (σ : Listener) (net : Net)
    (hn : ∀ i e, (T.meet σ [] []).2.1[i]? = some e → net i = e) :
    (T.meet σ [] []).1 = F net ∧ (T.meet σ [] []).2.1.length = (F net).2.conn.t ∧ (T.meet σ [] []).2.2 = written (F net).2.log := by
  have := Dialogue.meet_run σ T [] [] net hn
  rw [List.length_nil, h] at this
  exact ⟨(congrArg Prod.fst this).symm, (congrArg (fun x => x.2.1) this).symm, (congrArg (fun x => x.2.2) this).symm⟩

/-- **C123** Nothing that happens after the last call of an attempt changes anything in it. -/
theorem C123_causal (sha : Bytes → Bytes) (m : Build) (f : Nat) (peerId : Bytes) (info : Info) (idx n : Nat) (net net' : Net) (hs : SameUntil n net net')
    (ht : (downloadRun sha m net f peerId info idx).2.conn.t ≤ n) :
    downloadRun sha m net' f peerId info idx = downloadRun sha m net f peerId info idx := by
  obtain ⟨T, hT⟩ := played_downloadRun sha m f peerId info idx
  have := Dialogue.run_congr net net' T 0 [] fun i _ hi => hs i (by rw [hT] at hi; exact Nat.lt_of_lt_of_le hi ht)
  rw [hT, hT] at this
  exact (congrArg Prod.fst this).symm

/-- **C123** The same of the attempt to get the metadata. -/
theorem C123_causal_metadata (m : Build) (f : Nat) (peerId infoHash : Bytes) (n : Nat) (net net' : Net) (hs : SameUntil n net net')
    (ht : (getInfoRun m net f peerId infoHash).2.conn.t ≤ n) : getInfoRun m net' f peerId infoHash = getInfoRun m net f peerId infoHash := by
  obtain ⟨T, hT⟩ := played_getInfo m f peerId infoHash
  have := Dialogue.run_congr net net' T 0 [] fun i _ hi => hs i (by rw [hT] at hi; exact Nat.lt_of_lt_of_le hi ht)
  rw [hT, hT] at this
  exact (congrArg Prod.fst this).symm

/-- **C123** What has been written before a call is determined by what came of the calls before it, also in attempts that go on: it is the beginning of all that is
written, and all of it once there are no more calls. -/
theorem C123_written {ρ : Type} (T : Dialogue (ρ × Peer)) (F : Net → ρ × Peer) (h : Interactive T F) (n : Nat) (net net' : Net) (hs : SameUntil n net net') :
    T.before net n 0 [] = T.before net' n 0 [] ∧ T.before net n 0 [] <+: written (F net).2.log ∧
      ((F net).2.conn.t ≤ n → T.before net n 0 [] = written (F net).2.log) := by
  refine ⟨Dialogue.before_congr net net' n hs T 0 [], ?_, fun ht => ?_⟩
  · have := Dialogue.before_prefix net n T 0 []
    rwa [h] at this
  · have := Dialogue.before_all net n T 0 [] (by rw [h]; exact ht)
    rwa [h] at this

/-! Not every function of a schedule is a program at a socket: this one tells what comes of call 5 without having made it. -/
example : ¬ ∃ T : Dialogue (NetKind × Peer), Interactive T (fun net => ((net 5).kind, Peer.new ⟨[], 0⟩ [] [])) := by
  rintro ⟨T, h⟩
  cases T with
  | over a =>
    have h1 := congrArg (fun x => x.1.1) (h fun _ => ⟨[], .fail⟩)
    have h2 := congrArg (fun x => x.1.1) (h fun _ => ⟨[], .up⟩)
    simp only [Spec.Dialogue.run] at h1 h2
    rw [h1] at h2
    exact absurd h2 (by decide)
  | call says next =>
    have h1 := congrArg (fun x => x.2.1) (h fun _ => ⟨[], .fail⟩)
    have h2 := Dialogue.run_ge (fun _ => ⟨[], .fail⟩) (next ⟨[], .fail⟩) 1 ([] ++ says.toList)
    simp only [Spec.Dialogue.run] at h1
    rw [h1] at h2
    exact absurd h2 (by simp [Peer.new])

/-! An attempt with a peer that is not there: it ends with its second call, whatever would have come after it. -/
example (net : Net) (h : SameUntil 2 (fun _ => ⟨[], .fail⟩) net) :
    (getInfoRun .release net 3 b!"-RB0001-abcdefghijkl" b!"12345678901234567890").1 = .err .handshake :=
  (congrArg Prod.fst (C123_causal_metadata .release 3 b!"-RB0001-abcdefghijkl" b!"12345678901234567890" 2 _ net h (by decide +kernel))).trans
    (by decide +kernel)

/-! A listener that answers every handshake with the same bytes is a schedule as well. -/
example : ∃ net, ∃ T : Dialogue (Res PeerManagerError Info × Peer),
    (T.meet (fun heard past => ⟨if past.length = 1 then heard.flatten else [], .up⟩) [] []).1 =
      getInfoRun .release net 3 b!"-RB0001-abcdefghijkl" b!"12345678901234567890" := by
  obtain ⟨T, _, h⟩ := C123_metadata .release 3 b!"-RB0001-abcdefghijkl" b!"12345678901234567890"
  obtain ⟨net, hn⟩ := (h _).1 ⟨fun heard past => ⟨if past.length = 1 then heard.flatten else [], .up⟩, rfl⟩
  exact ⟨net, T, hn.symm⟩

end RustBit
