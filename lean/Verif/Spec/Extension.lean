/-
What an extension message says, read off the value in its header.
-/
import Verif.Spec.BencodeRel
import Verif.Spec.Messages

namespace Spec
open RustBit

/-- The integer a decoded dictionary has for a key. -/
def intAt (k : Bytes) : Metainfo → Option Nat
  | .dictionary m => match m.find? (fun e => e.1 = k) with
    | some (_, .integer n) => some n
    | _ => none
  | _ => none

/-- What a decoded dictionary has for a key; nothing if there is none. -/
def valueAt (k : Bytes) : Metainfo → Metainfo
  | .dictionary m => match m.find? (fun e => e.1 = k) with
    | some (_, v) => v
    | none => .nothing
  | _ => .nothing

/-- The header of an extension message begins with a document the decoder accepts, which says `v` and is `n` bytes long; or with no
value at all. -/
def Header (v : Metainfo) (n : Nat) (payload : Bytes) : Prop :=
  (n ≤ payload.length ∧ Lenient v (payload.take n)) ∨ (n = 0 ∧ v = .nothing ∧ ∀ b ∈ payload.head?, ¬ StartsValue b)

/-- The input starts with a value that is neither acceptable nor cut short nor one on which the decoder is stuck. -/
def Malformed (payload : Bytes) : Prop := ¬ Cut payload ∧ ¬ Stuck payload ∧ ∀ v n, ¬ Header v n payload

end Spec
