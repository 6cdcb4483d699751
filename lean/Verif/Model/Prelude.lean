/-
Shared vocabulary of the model: outcomes, machine arithmetic, byte strings, UTF-8, maps.
-/


namespace RustBit

/-- A byte string (`Vec<u8>` / `&[u8]`). A Rust `String` is represented by its UTF-8 bytes. -/
abbrev Bytes := List UInt8

open Lean in
/-- `b!"abc"` is the byte string of an ASCII literal (Rust `b"abc"` / `"abc".as_bytes()`). -/
macro:max "b!" s:str : term => do
  let elems := s.getString.toUTF8.toList.map fun (b : UInt8) => Syntax.mkNumLit (toString b.toNat)
  let elems := elems.toArray.map fun x => (⟨x⟩ : TSyntax `term)
  `(([$elems,*] : List UInt8))

open Lean in
/-- `c!"x"` is the byte of a one-character ASCII literal (Rust `b'x'`). -/
macro:max "c!" s:str : term => do
  let n := (s.getString.toUTF8.toList.headD 0).toNat
  `(($(Syntax.mkNumLit (toString n)) : UInt8))

/-- Outcome of running a Rust function: `Ok`, `Err`, a panic, or no result (the loop does not end
within the given fuel). -/
inductive Res (ε : Type) (α : Type) where
  | ok (a : α)
  | err (e : ε)
  | panic
  | hang
  deriving Repr, DecidableEq

namespace Res
variable {ε : Type} {ε' : Type} {α : Type} {β : Type}

/-- Sequencing; `err` is the early return of Rust's `?`. -/
@[inline] def bind (x : Res ε α) (f : α → Res ε β) : Res ε β :=
  match x with
  | ok a => f a
  | err e => err e
  | panic => panic
  | hang => hang

instance : Monad (Res ε) where
  pure := Res.ok
  bind := Res.bind

@[simp] theorem pure_eq (a : α) : (pure a : Res ε α) = ok a := rfl
@[simp] theorem bind_ok (a : α) (f : α → Res ε β) : (ok a >>= f) = f a := rfl
@[simp] theorem bind_err (e : ε) (f : α → Res ε β) : ((err e : Res ε α) >>= f) = err e := rfl
@[simp] theorem bind_panic (f : α → Res ε β) : ((panic : Res ε α) >>= f) = panic := rfl
@[simp] theorem bind_hang (f : α → Res ε β) : ((hang : Res ε α) >>= f) = hang := rfl

/-- `map_err` / the `From` conversion done by `?`. -/
def mapErr (f : ε → ε') : Res ε α → Res ε' α
  | ok a => ok a
  | err e => err (f e)
  | panic => panic
  | hang => hang

@[simp] theorem mapErr_ok (f : ε → ε') (a : α) : mapErr f (ok a) = ok a := rfl
@[simp] theorem mapErr_err (f : ε → ε') (e : ε) : mapErr f (err e : Res ε α) = err (f e) := rfl
@[simp] theorem mapErr_panic (f : ε → ε') : mapErr f (panic : Res ε α) = panic := rfl
@[simp] theorem mapErr_hang (f : ε → ε') : mapErr f (hang : Res ε α) = hang := rfl

/-- `Option` view of a result: Rust's `.ok()`; panics and hangs are not results and stay. -/
def toOption : Res ε α → Res ε' (Option α)
  | ok a => ok (some a)
  | err _ => ok none
  | panic => panic
  | hang => hang

/-- Did the call return to its caller (with `Ok` or `Err`)? -/
def returns : Res ε α → Prop
  | ok _ => True
  | err _ => True
  | panic => False
  | hang => False

end Res

/-- Overflow checking mode of the build: `cargo build` panics, `cargo build --release` wraps. -/
inductive Build where
  | debug
  | release
  deriving Repr, DecidableEq

/-- `usize + usize` on a 64-bit target. -/
def uadd {ε : Type} (m : Build) (a b : Nat) : Res ε Nat :=
  if a + b < 2 ^ 64 then .ok (a + b)
  else match m with
    | .debug => .panic
    | .release => .ok ((a + b) % 2 ^ 64)

/-- `usize - usize` on a 64-bit target. -/
def usub {ε : Type} (m : Build) (a b : Nat) : Res ε Nat :=
  if b ≤ a then .ok (a - b)
  else match m with
    | .debug => .panic
    | .release => .ok (a + 2 ^ 64 - b)

/-- `usize * usize` on a 64-bit target. -/
def umul {ε : Type} (m : Build) (a b : Nat) : Res ε Nat :=
  if a * b < 2 ^ 64 then .ok (a * b)
  else match m with
    | .debug => .panic
    | .release => .ok ((a * b) % 2 ^ 64)

/-- `&v[i..j]`: panics unless `i ≤ j ≤ v.len()`. -/
def slice {ε : Type} {α : Type} (l : List α) (i j : Nat) : Res ε (List α) :=
  if i ≤ j ∧ j ≤ l.length then .ok ((l.take j).drop i) else .panic

/-- `&v[i..]`: panics unless `i ≤ v.len()`. -/
def sliceFrom {ε : Type} {α : Type} (l : List α) (i : Nat) : Res ε (List α) :=
  if i ≤ l.length then .ok (l.drop i) else .panic

/-- `v[i]`: panics unless `i < v.len()`. -/
def index {ε : Type} {α : Type} (l : List α) (i : Nat) : Res ε α :=
  match l[i]? with
  | some a => .ok a
  | none => .panic

/-- `u32::to_be_bytes` of `n as u32` (the cast truncates mod 2^32). -/
def beU32 (n : Nat) : Bytes :=
  [UInt8.ofNat (n / 2 ^ 24 % 256), UInt8.ofNat (n / 2 ^ 16 % 256), UInt8.ofNat (n / 2 ^ 8 % 256),
   UInt8.ofNat (n % 256)]

/-- `u32::from_be_bytes` of a 4-byte array. -/
def ofBe (bs : Bytes) : Nat := bs.foldl (fun acc b => acc * 256 + b.toNat) 0

/-- `u8::is_ascii_digit`. -/
def isDigit (b : UInt8) : Bool := 48 ≤ b && b ≤ 57

/-- Decimal digits of `n`, least significant first, with fuel. -/
def digitsRev : Nat → Nat → Bytes
  | 0, _ => []
  | f + 1, n => UInt8.ofNat (48 + n % 10) :: (if n / 10 = 0 then [] else digitsRev f (n / 10))

/-- `format!("{}", n)` for an unsigned integer: plain decimal, no sign, no padding. -/
def decimal (n : Nat) : Bytes := (digitsRev (n + 1) n).reverse

/-- UTF-8 continuation byte `10xxxxxx`. -/
def isCont (b : UInt8) : Bool := 0x80 ≤ b && b ≤ 0xBF

/-- Admissible first two bytes of a three-byte sequence
(`core::str::validations::run_utf8_validation`). -/
def utf8Lead3 (b c : UInt8) : Bool :=
  (b == 0xE0 && 0xA0 ≤ c && c ≤ 0xBF) || (0xE1 ≤ b && b ≤ 0xEC && isCont c) ||
  (b == 0xED && 0x80 ≤ c && c ≤ 0x9F) || (0xEE ≤ b && b ≤ 0xEF && isCont c)

/-- Admissible first two bytes of a four-byte sequence. -/
def utf8Lead4 (b c : UInt8) : Bool :=
  (b == 0xF0 && 0x90 ≤ c && c ≤ 0xBF) || (0xF1 ≤ b && b ≤ 0xF3 && isCont c) ||
  (b == 0xF4 && 0x80 ≤ c && c ≤ 0x8F)

/-- `str::from_utf8(..).is_ok()`: the validation automaton of Rust's standard library
(`core::str::validations::run_utf8_validation`, the table of well-formed byte sequences). -/
def validUtf8 : Bytes → Bool
  | [] => true
  | b :: t =>
    if b < 0x80 then validUtf8 t
    else match t with
      | [] => false
      | c :: t2 =>
        if 0xC2 ≤ b && b ≤ 0xDF then isCont c && validUtf8 t2
        else match t2 with
          | [] => false
          | d :: t3 =>
            if utf8Lead3 b c then isCont d && validUtf8 t3
            else match t3 with
              | [] => false
              | e :: t4 => utf8Lead4 b c && isCont d && isCont e && validUtf8 t4

/-- `s.chars().count()`: number of bytes that are not continuation bytes
(`core::str::count`, exact for valid UTF-8). -/
def charCount (s : Bytes) : Nat := (s.filter (fun b => !isCont b)).length

/-- `HashMap::insert`, the map being an association list without duplicate keys. -/
def mapInsert {α : Type} (m : List (Bytes × α)) (k : Bytes) (v : α) : List (Bytes × α) :=
  match m with
  | [] => [(k, v)]
  | (k', v') :: t => if k' = k then (k, v) :: t else (k', v') :: mapInsert t k v

/-- `HashMap::get`. -/
def mapGet {α : Type} (m : List (Bytes × α)) (k : Bytes) : Option α :=
  match m with
  | [] => none
  | (k', v') :: t => if k' = k then some v' else mapGet t k

/-- `(0..n).step_by(k).len()`; `step_by(0)` panics. -/
def stepByLen {ε : Type} (n k : Nat) : Res ε Nat :=
  if k = 0 then .panic else .ok ((n + (k - 1)) / k)

end RustBit
