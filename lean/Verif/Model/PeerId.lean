/-
Model of src/common/generator.rs: the peer ids the client makes up.
-/
import Verif.Model.Tracker

namespace RustBit

/-- `Alphanumeric` of the crate `rand` 0.8.5 (Cargo.toml:15): the characters it draws from. -/
def alphanumerics : Bytes := b!"ABCDEFGHIJKLMNOPQRSTUVWXYZabcdefghijklmnopqrstuvwxyz0123456789"

/-- `Alphanumeric::sample` of `rand` 0.8.5: the upper six bits of a 32-bit word from the generator are an index into the characters; the
word is dropped, and the next one taken, when the index is too large. `rng` is everything the generator of the thread yields, `i` the number
of words already taken. The result is the character and the number of words taken then. The loop has no bound: it stops when the fuel runs out. -/
def sampleAlphanumeric (rng : Nat → UInt32) : Nat → Nat → Res Unit (UInt8 × Nat)
  | 0, _ => .hang
  | f + 1, i =>
    let var := rng i >>> (32 - 6)
    if var < 26 + 26 + 10 then
      match alphanumerics[var.toNat]? with
      | some c => .ok (c, i + 1)
      | none => .panic
    else sampleAlphanumeric rng f (i + 1)

/-- src/common/generator.rs:6-9 `sample_iter(..).take(n).map(char::from).collect()`. -/
def sampleMany (rng : Nat → UInt32) (f : Nat) : Nat → Nat → Res Unit (Bytes × Nat)
  | 0, i => .ok ([], i)
  | n + 1, i => do
    let (c, i) ← sampleAlphanumeric rng f i
    let (s, i) ← sampleMany rng f n i
    .ok (c :: s, i)

/-- src/common/generator.rs:4-10 `generate_peer_id`. The characters are ASCII, so the bytes of the string are the characters. -/
def generatePeerId (rng : Nat → UInt32) (f : Nat) (i : Nat) : Res Unit (Bytes × Nat) := sampleMany rng f 20 i

end RustBit
