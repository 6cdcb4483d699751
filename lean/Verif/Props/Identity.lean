/-
Property C85: the info hash identifies the metadata.
-/
import Verif.Proofs.EncodeTyped
import Verif.Props.Bencode
import Verif.Props.Text
import Verif.Props.Transfer
import Verif.Spec.EndToEnd

namespace RustBit
open Spec

theorem infoText_of_bytes {b : Bytes} {i : Info} (h : Info.fromBytes b = .ok i) : InfoText i := by
  obtain ⟨⟨cs, h1⟩, h2⟩ := C72_names_are_text b i h
  refine ⟨valid_of_text h1, fun fs hf f hfs p hp => ?_⟩
  obtain ⟨cs, h3⟩ := h2 fs hf f hfs p hp
  exact valid_of_text h3

/-- Metadata can be told from its encoding, whatever text it contains and whatever follows. -/
theorem C85_encoding (i j : Info) (r r' : Bytes) (hi : InfoText i) (hj : InfoText j) (e : i.encode ++ r = j.encode ++ r') :
    i = j ∧ r = r' := info_prefix hi hj e

/-- Two metadata received from anywhere for which the program computes the same info hash are equal, or a collision of the hash function
is at hand. -/
theorem C85_identity (sha : Bytes → Bytes) (b b' : Bytes) (i j : Info) (hi : Info.fromBytes b = .ok i) (hj : Info.fromBytes b' = .ok j)
    (h : i.computeInfoHash sha = j.computeInfoHash sha) : i = j ∨ Collision sha i.encode j.encode := by
  by_cases e : i.encode = j.encode
  · exact .inl (info_prefix (r := []) (r' := []) (infoText_of_bytes hi) (infoText_of_bytes hj) (by rw [e])).1
  · exact .inr ⟨e, h⟩

/-- Non-vacuity: two documents of the same metadata; the second has a further key. -/
example : ∃ i, Info.fromBytes b!"d6:lengthi1e4:name1:x12:piece lengthi1e6:pieces1:ye" = .ok i ∧
    Info.fromBytes b!"d6:lengthi1e4:name1:x12:piece lengthi1e6:pieces1:y7:privatei1ee" = .ok i :=
  ⟨⟨none, some 1, b!"x", 1, b!"y"⟩, by decide +kernel, by decide +kernel⟩

/-- Every piece is loaded from a peer that presented the info hash of just this metadata: if it is the hash of some metadata `j`, then that
is the metadata the piece is loaded for, or a collision is at hand. -/
theorem C85_same_torrent (sha : Bytes → Bytes) (m : Build) (net : Net) (f : Nat) (peerId : Bytes) (info : Info) (idx : Nat) (piece : Bytes)
    (p : Peer) (hi : InfoText info) (h : downloadRun sha m net f peerId info idx = (.ok piece, p)) :
    ∃ (msg : Message) (x : HandshakeMessage), p.log[1]? = some (.got msg) ∧ msg.content = .handshake x ∧
      ∀ j, InfoText j → x.infoHash = j.computeInfoHash sha → info = j ∨ Collision sha info.encode j.encode := by
  have hr := C31_ready net (info.computeInfoHash sha) peerId (initPeer net (freshPeer (info.computeInfoHash sha) peerId)).2
  unfold downloadRun at h
  simp only [freshPeer] at hr
  generalize initPeer net (Peer.new ⟨[], 0⟩ (info.computeInfoHash sha) peerId) = r at h hr
  obtain ⟨r1, q⟩ := r
  cases r1 with
  | ok u =>
    obtain ⟨-, -, -, msg, x, gots, hlog, hc, hx⟩ := hr rfl
    simp only [] at h hlog
    cases ht : (info.getTotalLength m : Res PeerManagerError Nat) with
    | ok total =>
      rw [ht] at h
      simp only [] at h
      have hd := download_history m net (.block info.pieceLength idx total) f q
      generalize (Downloadable.block info.pieceLength idx total).download m net f q = D at h hd
      obtain ⟨d1, q'⟩ := D
      cases d1 with
      | ok b =>
        simp only [Prod.mk.injEq] at h
        obtain ⟨h1, rfl⟩ := h
        rcases hd with ⟨cap, new, hcap, hend⟩ | ⟨-, -, hno⟩
        · refine ⟨msg, x, by rw [hend.log, hlog]; rfl, hc, fun j hj e => ?_⟩
          rw [hx] at e
          by_cases e1 : info.encode = j.encode
          · exact .inl (info_prefix (r := []) (r' := []) hi hj (by rw [e1])).1
          · exact .inr ⟨e1, e⟩
        · exact absurd rfl (hno b)
      | err e => simp at h
      | panic => simp at h
      | hang => simp at h
    | err e => simp [ht] at h
    | panic => simp [ht] at h
    | hang => simp [ht] at h
  | err e => simp at h
  | panic => simp at h
  | hang => simp at h

/-- Non-vacuity: such a download, of a torrent whose name is not ASCII. -/
example : (downloadRun (fun _ => List.replicate 20 7) .release
    (script [sampleHandshake (List.replicate 20 7) ++ sampleExtension b!"5" ++ sampleUnchoke ++ blockMessage 0 0 [42]]) 5 (List.replicate 20 1)
    ⟨none, some 1, smuggled, 16384, List.replicate 20 7⟩ 0).1 = .ok [42] ∧
    InfoText ⟨none, some 1, smuggled, 16384, List.replicate 20 7⟩ :=
  ⟨by decide +kernel, rfl, fun fs h => by cases h⟩

end RustBit
