/-
What a value of the Rust type `Info` can be.
-/
import Verif.Model.Info

namespace Spec
open RustBit

/-- The value fits its Rust type: texts are valid UTF-8, numbers have 64 bits. -/
structure Typed (i : Info) : Prop where
  name : validUtf8 i.name = true
  pieceLength : i.pieceLength < 2 ^ 64
  length : ∀ n, i.length = some n → n < 2 ^ 64
  files : ∀ fs, i.files = some fs → ∀ f ∈ fs, f.length < 2 ^ 64 ∧ ∀ p ∈ f.path, validUtf8 p = true

end Spec
