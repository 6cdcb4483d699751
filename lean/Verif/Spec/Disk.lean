import Verif.Model.Disk
import Verif.Spec.Writer

/-!
What may be expected of a disk.
-/

namespace Spec
open RustBit

/-- A disk that takes all of up to `n` bytes, or reports an error. -/
def NeverShort (disk : Disk) (n : Nat) : Prop := ∀ t k, (disk t).takes = some k → n ≤ k

/-- A disk without errors that always takes everything. -/
def Sound (disk : Disk) (n : Nat) : Prop := ∀ t, (disk t).dirs = none ∧ (disk t).opens = true ∧ ∃ k, (disk t).takes = some k ∧ n ≤ k

/-- What remains of a part when only its first `n` bytes are taken. -/
def Part.upTo (p : Part) (n : Nat) : Part := { p with data := p.data.take n }

end Spec
