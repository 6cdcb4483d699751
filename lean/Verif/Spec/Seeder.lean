/-
What it is to send what one is asked for.
-/
import Verif.Spec.Attempt
import Verif.Spec.Conversation

namespace Spec
open RustBit

/-- What has been asked of a peer: whatever was written to it after the three messages that open a connection. -/
def askedOf (log : List Ev) : List Bytes := (written log).drop 3

/-- The answers that have come. -/
def repliesIn (d : Downloadable) (log : List Ev) : List Message := (came log).filter (isAnswer d)

/-- `x` is what a torrent with the content `c` holds where the request `w` says. -/
def RightBlock (c : Bytes) (pieceLength : Nat) (w x : Bytes) : Prop :=
  ∃ i o l, IsBlockRequest i o l w ∧ x = (c.drop (i * pieceLength + o)).take l

/-- `x` is the part of the metadata `c` that the request `w` names. -/
def RightPart (c : Bytes) (w x : Bytes) : Prop :=
  ∃ ext i, IsExtension ext [(b!"msg_type", .int 0), (b!"piece", .int (i : Nat))] [] w ∧ x = (c.drop (i * 16384)).take 16384

/-- Every answer holds what is right for something that had been asked before. -/
def Truthful (right : Bytes → Bytes → Prop) (d : Downloadable) (log : List Ev) : Prop :=
  ∀ pre x post, log = pre ++ .got x :: post → isAnswer d x = true → ∃ w, w ∈ askedOf pre ∧ right w x.contentData

/-- And every request is answered at most once, in order: answer `k` holds what is right for request `k`, which was made before. -/
def InReply (right : Bytes → Bytes → Prop) (d : Downloadable) (log : List Ev) : Prop :=
  ∀ pre x post, log = pre ++ .got x :: post → isAnswer d x = true →
    ∃ w, (askedOf pre)[(repliesIn d pre).length]? = some w ∧ right w x.contentData

end Spec
