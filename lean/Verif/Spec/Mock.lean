/-
What the mock stream of the tests is for: two queues, and the connection they stand for.
-/
import Verif.Spec.Stream

namespace Spec
open RustBit

/-- Something done to a mock stream: by the code under test (`read`, `peek`, `write`, `timeout`), or by
the test itself (`push`, `pop`). -/
inductive Use where
  | read (n : Nat)
  | peek (n : Nat)
  | write (bs : Bytes)
  | timeout
  | push (bs : Bytes)
  | pop
  deriving Repr, DecidableEq

/-- What reads and peeks give, in order, when the bytes `q` are waiting: the first of them, as many as are
asked for; a read removes them, a push adds some at the end. -/
def reads : Bytes → List Use → List Bytes
  | _, [] => []
  | q, .read n :: us => q.take n :: reads (q.drop n) us
  | q, .peek n :: us => q.take n :: reads q us
  | q, .push bs :: us => reads (q ++ bs) us
  | q, _ :: us => reads q us

/-- The bytes waiting afterwards. -/
def inQueue : Bytes → List Use → Bytes
  | q, [] => q
  | q, .read n :: us => inQueue (q.drop n) us
  | q, .push bs :: us => inQueue (q ++ bs) us
  | q, _ :: us => inQueue q us

/-- What the pops give, in order, when the bytes `w` have been written since the last one. -/
def pops : Bytes → List Use → List Bytes
  | _, [] => []
  | w, .write bs :: us => pops (w ++ bs) us
  | w, .pop :: us => w :: pops [] us
  | w, _ :: us => pops w us

/-- What a mock stream reports as the number of bytes to be read, `q` waiting and `n` being reported so far: all bytes pushed since a push last
found none waiting. -/
def counted : Bytes → Nat → List Use → Nat
  | _, n, [] => n
  | q, n, .read k :: us => counted (q.drop k) n us
  | q, n, .push bs :: us => counted (q ++ bs) (if q = [] then bs.length else n + bs.length) us
  | q, n, _ :: us => counted q n us

/-- The bytes a peer must send before each system call for a connection to be like the mock stream. -/
def deliveries : Bytes → List Use → List Bytes
  | _, [] => []
  | acc, .push bs :: us => deliveries (acc ++ bs) us
  | acc, .pop :: us => deliveries acc us
  | acc, _ :: us => acc :: deliveries [] us

/-- A connection whose peer closes its side, having sent before each system call what is listed. -/
def closing (segs : List Bytes) : Net := fun t => ⟨segs.getD t [], .eof⟩

end Spec
