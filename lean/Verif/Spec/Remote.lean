/-
Vocabulary for downloads from peers that are far away.
-/
import Verif.Spec.Timed
import Verif.Spec.Pace
import Verif.Model.Pace

namespace Spec
open RustBit

/-- An attempt to download piece `idx` that ends well, of `B` blocks at least, from a peer that answers no earlier than `δ` after being asked, takes `time`. -/
def FarAttempt (m : Build) (info : Info) (idx B δ time : Nat) : Prop :=
  ∃ (net : Net) (w0 : Nat) (w : Waits) (f total cap : Nat) (p q : Peer) (piece : Bytes),
    info.getTotalLength m = (.ok total : Res PeerManagerError Nat) ∧ initPeer net p = (.ok (), q) ∧
    ((Downloadable.block info.pieceLength idx total).capacity m q : Res DownloadableError Nat) = .ok cap ∧ B ≤ cap ∧
    ((Downloadable.block info.pieceLength idx total).download m net f q).1 = .ok piece ∧
    Latency δ (.block info.pieceLength idx total) (execRunHistory m net w (.block info.pieceLength idx total) f 0 ⟨q, ⟨[], cap, 0⟩, 0⟩) ∧
    time = attemptTime m net w0 w (.block info.pieceLength idx total) f p

/-- All downloads of torrent `k` that end well are such attempts: one that a worker begins after the `i`-th state and ends after the `j`-th takes as long as the attempt,
or longer. -/
structure Far (w : World) (run : Nat → App) (k : Nat) (clock : Nat → Nat) (info : Info) (B δ : Nat) : Prop where
  mono : ∀ i, clock i ≤ clock (i + 1)
  attempt : ∀ p i j s t u, i < j → (run i).proc.slots[k]? = some s → p ∉ s.sys.busy.map Request.idx →
    Throughout run k (fun s => p ∈ s.busy.map Request.idx) (i + 1) j → (run j).proc.slots[k]? = some t → p ∉ downloaded t.sys →
    (run (j + 1)).proc.slots[k]? = some u → p ∈ downloaded u.sys →
    ∃ time, FarAttempt w.build info p B δ time ∧ clock (i + 1) + time ≤ clock (j + 1)

end Spec
