/-
Model of the shuffle in src/actors/torrent.rs:206 (`SliceRandom::shuffle` of rand 0.8.5, seq/mod.rs): the numbers drawn are an argument.
-/
import Verif.Model.Actors

namespace RustBit

/-- `slice::swap`. (Out of bounds it panics; the shuffle does not do this.) -/
def swapAt {α : Type} (l : List α) (i j : Nat) : List α :=
  match l[i]?, l[j]? with
  | some a, some b => (l.set i b).set j a
  | _, _ => l

/-- The loop `for i in (1..k).rev() { self.swap(i, gen_index(rng, i + 1)) }`, given the numbers drawn. -/
def shuffleLoop {α : Type} : Nat → List α → List Nat → List α
  | k + 2, l, c :: cs => shuffleLoop (k + 1) (swapAt l (k + 1) c) cs
  | _, l, _ => l

/-- `shuffle`. -/
def shuffle {α : Type} (l : List α) (draws : List Nat) : List α := shuffleLoop l.length l draws

end RustBit
