/-
Specification: which path strings can lead out of the directory they start from.
-/
import Verif.Model.FileSystem

namespace Spec
open RustBit

/-- Whoever follows the components, beginning `n` levels below a directory, never leaves that directory. -/
def Stays : Nat → List Bytes → Prop
  | _, [] => True
  | n, c :: cs => if c = b!".." then 0 < n ∧ Stays (n - 1) cs else Stays (n + 1) cs

instance : ∀ (n : Nat) (cs : List Bytes), Decidable (Stays n cs)
  | _, [] => isTrue trivial
  | n, c :: cs => by
    have h1 := instDecidableStays (n - 1) cs
    have h2 := instDecidableStays (n + 1) cs
    unfold Stays
    infer_instance

/-- Where the components lead from `l` when every name is a directory. -/
def lex : Loc → List Bytes → Loc
  | l, [] => l
  | l, c :: cs => if c = b!".." then lex l.dropLast cs else lex (l ++ [c]) cs

/-- A string that, as the path of a file to create with its directories, makes something outside the working directory: it has a name
component `c`, the path is absolute or the components before have led out, and the name is not refused (NUL bytes; a slash at the end, if it
is the name of the file). -/
def Escapes (s : Bytes) : Prop :=
  let p := PathBuf.parse s
  ∃ q c r, p.comps = q ++ c :: r ∧ c ≠ b!".." ∧ (p.absolute = true ∨ ¬ Stays 0 q) ∧
    (if r = [] then p.trailing = false ∧ ∀ x ∈ p.comps, (0 : UInt8) ∉ x else ∀ x ∈ p.comps.dropLast, (0 : UInt8) ∉ x)

/-- A string that, as the path of a file to create with its directories, can be served: it ends in a name, is not refused, none of the directories it
passes is a file, and there is no directory in the place of the file, nor would one have to be made there. -/
def Writable (fs : FS) (cwd : Loc) (s : Bytes) : Prop :=
  let p := PathBuf.parse s
  ∃ r name, p.comps = r ++ [name] ∧ name ≠ b!".." ∧ p.trailing = false ∧ (∀ x ∈ p.comps, (0 : UInt8) ∉ x) ∧
    (∀ q c, q ++ [c] <+: r → c ≠ b!".." → (∀ d, fs (lex (p.base cwd) (q ++ [c])) ≠ some (.file d)) ∧
      lex (p.base cwd) (q ++ [c]) ≠ lex (p.base cwd) p.comps) ∧
    fs (lex (p.base cwd) p.comps) ≠ some .dir

end Spec
