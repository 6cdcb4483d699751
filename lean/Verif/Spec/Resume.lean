/-
Vocabulary for the property that a download is resumed.
-/
import Verif.Spec.Process
import Verif.Spec.EndToEnd

namespace Spec
open RustBit

/-- The directories of the listed files that exist are there: what holds of every real file system. -/
def Rooted (fs : FS) (cwd : Loc) (files : List File) : Prop :=
  ∀ f ∈ files, ∀ c, fs (cwd ++ f.path) = some (.file c) → ∀ q, q ≠ [] → q <+: f.path → q ≠ f.path → fs (cwd ++ q) = some .dir

end Spec
