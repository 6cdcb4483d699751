/-
What a decoded value stands for: hash maps have no order.
-/
import Verif.Spec.BencodeRel

namespace Spec
open RustBit

mutual
/-- The decoded value stands for the bencode value; the entries of a map are in no particular order. -/
inductive StandsFor : Metainfo → BVal → Prop
  | int {n : Nat} : StandsFor (.integer n) (.int (n : Int))
  | str {s} : StandsFor (.string s) (.str s)
  | list {l l'} : StandForElems l l' → StandsFor (.list l) (.list l')
  | dict {d d' e} : d.Perm d' → StandForEntries d' e → StandsFor (.dictionary d) (.dict e)
inductive StandForElems : List Metainfo → List BVal → Prop
  | nil : StandForElems [] []
  | cons {v w l l'} : StandsFor v w → StandForElems l l' → StandForElems (v :: l) (w :: l')
inductive StandForEntries : List (Bytes × Metainfo) → List (Bytes × BVal) → Prop
  | nil : StandForEntries [] []
  | cons {k v w l l'} : StandsFor v w → StandForEntries l l' → StandForEntries ((k, v) :: l) ((k, w) :: l')
end

end Spec
