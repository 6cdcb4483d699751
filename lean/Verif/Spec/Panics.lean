/-
Vocabulary for what makes a torrent actor panic.
-/
import Verif.Spec.Writer
import Verif.Model.Actors

namespace Spec
open RustBit

/-- Metadata that cannot be used. -/
def Unusable (m : Build) (i : Info) : Prop :=
  i.pieceLength = 0 ∨ (i.files = none ∧ i.length = none) ∨ (m = .debug ∧ ∃ fs, i.files = some fs ∧ 2 ^ 64 ≤ (fs.map File.length).sum)

/-- A cached document that makes the handler panic: it is none of an `Info`, or of one that cannot be used. -/
def Poisoned (m : Build) (doc : Bytes) : Prop := validUtf8 doc = true ∧ ∀ i, Info.fromJson doc = some i → Unusable m i

/-- There is a file at the location that can be read as text. -/
def HasText (fs : FS) (l : Loc) : Prop := ∃ c, readFile fs l = some c ∧ validUtf8 c = true

/-- What makes getting the metadata of a torrent fatal: `downloads` is a file; or the cached document is poisoned; or nothing can be read from the cache, and the
attempt to get the metadata from the peer panics, gives metadata that cannot be used, or gives metadata while a directory is in the place of the cache file. -/
def Fatal (w : World) (fs : FS) (dial : Dial) (f : Nat) (peerId infoHash : Bytes) : Prop :=
  (∃ c, readFile fs (w.cwd ++ [b!"downloads"]) = some c) ∨
  (∃ c, readFile fs (w.cwd ++ [b!"downloads", percentEncode infoHash]) = some c ∧ Poisoned w.build c) ∨
  (¬ HasText fs (w.cwd ++ [b!"downloads", percentEncode infoHash]) ∧
    (getInfo w.build dial f peerId infoHash = .panic ∨
      ∃ i, getInfo w.build dial f peerId infoHash = .ok i ∧ (Unusable w.build i ∨ fs (w.cwd ++ [b!"downloads", percentEncode infoHash]) = some .dir)))

end Spec
