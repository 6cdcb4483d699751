/-
Which decoded dictionaries stand for which metadata, independent of the accessors of the client.
-/
import Verif.Model.Info
import Verif.Spec.Text

namespace Spec
open RustBit

/-- The first entry with this key has this value (in a decoded dictionary there is at most one). -/
def At (d : List (List UInt8 × Metainfo)) (k : List UInt8) (v : Metainfo) : Prop :=
  ∃ pre post, d = pre ++ (k, v) :: post ∧ ∀ e ∈ pre, e.1 ≠ k

/-- A file entry: an integer `length` and a `path` of texts; other entries are ignored. -/
def IsEntry (m : Metainfo) (f : RustBit.File) : Prop :=
  ∃ d, m = .dictionary d ∧ At d b!"length" (.integer f.length) ∧ At d b!"path" (.list (f.path.map .string)) ∧ ∀ p ∈ f.path, Text p

/-- The files of those entries that are file entries, in order. -/
inductive Sifted : List Metainfo → List RustBit.File → Prop
  | nil : Sifted [] []
  | keep {m f ms fs} : IsEntry m f → Sifted ms fs → Sifted (m :: ms) (f :: fs)
  | drop {m ms fs} : (∀ f, ¬ IsEntry m f) → Sifted ms fs → Sifted (m :: ms) fs

/-- The metadata a decoded value stands for. -/
structure ReadsAs (a : Metainfo) (i : Info) : Prop where
  ex : ∃ d, a = .dictionary d ∧ At d b!"pieces" (.string i.pieces) ∧ At d b!"piece length" (.integer i.pieceLength) ∧
    At d b!"name" (.string i.name) ∧ Text i.name ∧ (∀ n, i.length = some n ↔ At d b!"length" (.integer n)) ∧
    (∀ fs, i.files = some fs ↔ ∃ es, At d b!"files" (.list es) ∧ Sifted es fs)

end Spec
