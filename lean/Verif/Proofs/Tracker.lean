/-
Lemmas about the tracker model.
-/
import Verif.Model.Tracker
import Verif.Spec.Tracker
import Verif.Proofs.Grammar
import Verif.Proofs.Info

namespace RustBit
open Spec

/-! ### Percent-encoding -/

theorem byte_forall {p : UInt8 → Prop} (h : ∀ i : Fin 256, p (UInt8.ofNat i.val)) (b : UInt8) : p b := by
  have := h ⟨b.toNat, UInt8.toNat_lt b⟩
  rwa [UInt8.ofNat_toNat] at this

theorem hexValue_hexUpper (n : UInt8) : n < 16 → hexValue (hexUpper n) = some n :=
  byte_forall (p := fun n => n < 16 → hexValue (hexUpper n) = some n) (by decide +kernel) n

theorem high_nibble (b : UInt8) : b >>> 4 < 16 := byte_forall (p := fun b => b >>> 4 < 16) (by decide +kernel) b

theorem low_nibble (b : UInt8) : b &&& 15 < 16 := byte_forall (p := fun b => b &&& 15 < 16) (by decide +kernel) b

theorem nibbles_join (b : UInt8) : b >>> 4 * 16 + (b &&& 15) = b :=
  byte_forall (p := fun b => b >>> 4 * 16 + (b &&& 15) = b) (by decide +kernel) b

theorem percentDecode_escape (b : UInt8) (t : Bytes) :
    percentDecode (c!"%" :: hexUpper (b >>> 4) :: hexUpper (b &&& 15) :: t) = b :: percentDecode t := by
  rw [percentDecode]
  rw [hexValue_hexUpper _ (high_nibble b), hexValue_hexUpper _ (low_nibble b)]
  simp only []
  rw [nibbles_join]

theorem urlSafe_ne_percent (b : UInt8) : urlSafe b = true → b ≠ 37 :=
  byte_forall (p := fun b => urlSafe b = true → b ≠ 37) (by decide +kernel) b

theorem percentDecode_other (b : UInt8) (t : Bytes) (h : b ≠ 37) : percentDecode (b :: t) = b :: percentDecode t := by
  rw [percentDecode]
  intro x y t' h'
  exact absurd h' h

theorem percentDecode_encode (s rest : Bytes) : percentDecode (percentEncode s ++ rest) = s ++ percentDecode rest := by
  induction s with
  | nil => simp [percentEncode]
  | cons b t ih =>
    rw [percentEncode]
    split
    · rename_i h
      rw [List.cons_append, percentDecode_other _ _ (urlSafe_ne_percent b h), ih, List.cons_append]
    · rw [List.cons_append, List.cons_append, List.cons_append, percentDecode_escape, ih, List.cons_append]

theorem hexUpper_cases (n : UInt8) : n < 16 → urlSafe (hexUpper n) = true :=
  byte_forall (p := fun n => n < 16 → urlSafe (hexUpper n) = true) (by decide +kernel) n

theorem percentEncode_chars (s : Bytes) : ∀ b ∈ percentEncode s, urlSafe b = true ∨ b = 37 := by
  induction s with
  | nil => simp [percentEncode]
  | cons a t ih =>
    intro b hb
    rw [percentEncode] at hb
    split at hb
    · rename_i h
      rcases List.mem_cons.mp hb with rfl | hb
      · exact Or.inl h
      · exact ih b hb
    · have h1 := high_nibble a
      have h2 := low_nibble a
      simp only [List.mem_cons] at hb
      rcases hb with rfl | rfl | rfl | hb
      · exact Or.inr rfl
      · exact Or.inl (hexUpper_cases _ h1)
      · exact Or.inl (hexUpper_cases _ h2)
      · exact ih b hb

theorem percentEncode_length (s : Bytes) : s.length ≤ (percentEncode s).length ∧ (percentEncode s).length ≤ 3 * s.length := by
  induction s with
  | nil => simp [percentEncode]
  | cons a t ih =>
    rw [percentEncode]
    split <;> simp only [List.length_cons] <;> omega

theorem urlSafe_iff (b : UInt8) : urlSafe b = true ↔ IsUnreserved b :=
  byte_forall (p := fun b => urlSafe b = true ↔ IsUnreserved b) (by unfold IsUnreserved; decide +kernel) b

theorem hexUpper_capital (n : UInt8) : n < 16 → IsCapitalHex (hexUpper n) :=
  byte_forall (p := fun n => n < 16 → IsCapitalHex (hexUpper n)) (by unfold IsCapitalHex; decide +kernel) n

theorem capital_hexUpper (c h : UInt8) (hc : IsCapitalHex c) (hv : hexValue c = some h) : h < 16 ∧ hexUpper h = c := by
  have := byte_forall (p := fun c => IsCapitalHex c → ∀ h, hexValue c = some h → h < 16 ∧ hexUpper h = c) (by
    intro i
    have : ∀ i : Fin 256, IsCapitalHex (UInt8.ofNat i.val) → (hexValue (UInt8.ofNat i.val)).all
        (fun h => decide (h < 16) && decide (hexUpper h = UInt8.ofNat i.val)) = true := by
      unfold IsCapitalHex; decide +kernel
    intro hi h hh
    have := this i hi
    rw [hh] at this
    simpa using this) c
  exact this hc h hv

theorem join_nibbles (h l : UInt8) (hh : h < 16) (hl : l < 16) : (h * 16 + l) >>> 4 = h ∧ (h * 16 + l) &&& 15 = l := by
  have key : ∀ i j : Fin 16, (UInt8.ofNat i.val * 16 + UInt8.ofNat j.val) >>> 4 = UInt8.ofNat i.val ∧
      (UInt8.ofNat i.val * 16 + UInt8.ofNat j.val) &&& 15 = UInt8.ofNat j.val := by decide +kernel
  have := key ⟨h.toNat, by simpa [UInt8.lt_iff_toNat_lt] using hh⟩ ⟨l.toNat, by simpa [UInt8.lt_iff_toNat_lt] using hl⟩
  simpa only [UInt8.ofNat_toNat] using this

theorem percentEncode_normal (s : Bytes) : NormalEscapes (percentEncode s) := by
  induction s with
  | nil => exact .nil
  | cons b t ih =>
    rw [percentEncode]
    split
    · rename_i h
      exact .plain ((urlSafe_iff b).mp h) ih
    · rename_i h
      refine .escaped (hexUpper_capital _ (high_nibble b)) (hexUpper_capital _ (low_nibble b)) (hexValue_hexUpper _ (high_nibble b))
        (hexValue_hexUpper _ (low_nibble b)) ?_ ih
      rw [nibbles_join]
      exact fun hu => h ((urlSafe_iff b).mpr hu)

theorem normal_percentEncode {s : Bytes} (h : NormalEscapes s) : percentEncode (percentDecode s) = s := by
  induction h with
  | nil => simp [percentDecode, percentEncode]
  | @plain b s hb _ ih =>
    have hs := (urlSafe_iff b).mpr hb
    rw [percentDecode_other _ _ (urlSafe_ne_percent b hs), percentEncode, if_pos hs, ih]
  | @escaped x y h l s hx hy h1 h2 hu _ ih =>
    obtain ⟨a1, a2⟩ := capital_hexUpper x h hx h1
    obtain ⟨b1, b2⟩ := capital_hexUpper y l hy h2
    obtain ⟨c1, c2⟩ := join_nibbles h l a1 b1
    rw [percentDecode, h1, h2]
    simp only []
    rw [percentEncode, if_neg (fun hs => hu ((urlSafe_iff _).mp hs)), c1, c2, a2, b2, ih]

/-! ### Splitting -/

theorem cutAt_append (c : UInt8) (s t : Bytes) (h : c ∉ s) : cutAt c (s ++ c :: t) = (s, some t) := by
  induction s with
  | nil => simp [cutAt]
  | cons b s ih =>
    simp only [List.mem_cons, not_or] at h
    rw [List.cons_append, cutAt, if_neg (fun e => h.1 e.symm), ih h.2]

theorem cutAt_none (c : UInt8) (s : Bytes) (h : c ∉ s) : cutAt c s = (s, none) := by
  induction s with
  | nil => simp [cutAt]
  | cons b s ih =>
    simp only [List.mem_cons, not_or] at h
    rw [cutAt, if_neg (fun e => h.1 e.symm), ih h.2]

theorem splitAll_none (c : UInt8) (s : Bytes) (h : c ∉ s) : splitAll c s = [s] := by
  induction s with
  | nil => rfl
  | cons b s ih =>
    simp only [List.mem_cons, not_or] at h
    rw [splitAll, if_neg (fun e => h.1 e.symm), ih h.2]

theorem splitAll_append (c : UInt8) (s t : Bytes) (h : c ∉ s) : splitAll c (s ++ c :: t) = s :: splitAll c t := by
  induction s with
  | nil => simp [splitAll]
  | cons b s ih =>
    simp only [List.mem_cons, not_or] at h
    rw [List.cons_append, splitAll, if_neg (fun e => h.1 e.symm), ih h.2]

/-! ### Compact peers -/

theorem chunksExact_cons6 (a b c d e f : UInt8) (t : Bytes) :
    chunksExact 6 (a :: b :: c :: d :: e :: f :: t) = [a, b, c, d, e, f] :: chunksExact 6 t := by
  apply List.ext_getElem?
  intro i
  cases i with
  | zero =>
    simp [chunksExact]
  | succ i =>
    rw [List.getElem?_cons_succ]
    simp only [chunksExact, List.getElem?_map, List.length_cons]
    have : (t.length + 1 + 1 + 1 + 1 + 1 + 1) / 6 = t.length / 6 + 1 := by omega
    rw [this]
    by_cases hi : i < t.length / 6
    · rw [List.getElem?_range (by omega), List.getElem?_range hi]
      simp only [Option.map_some]
      congr 2
      have : (i + 1) * 6 = i * 6 + 6 := by omega
      rw [this]
      simp only [List.drop_succ_cons]
    · rw [List.getElem?_eq_none (l := List.range (t.length / 6 + 1)) (by simp; omega),
        List.getElem?_eq_none (l := List.range (t.length / 6)) (by simp; omega)]
      rfl

theorem chunksExact_short (l : Bytes) (h : l.length < 6) : chunksExact 6 l = [] := by
  unfold chunksExact
  rw [Nat.div_eq_of_lt h]
  rfl

/-- The endpoint the code makes of an address. -/
def epOf (x : Addr) : PeerEndpoint :=
  ⟨decimal x.a.toNat ++ c!"." :: decimal x.b.toNat ++ c!"." :: decimal x.c.toNat ++ c!"." :: decimal x.d.toNat, x.port⟩

theorem ofChunk_compact (x : Addr) (h : x.port < 65536) : PeerEndpoint.ofChunk x.compact = epOf x := by
  unfold PeerEndpoint.ofChunk Addr.compact epOf
  simp only [List.getD_cons_zero, List.getD_cons_succ]
  congr 1
  rw [UInt8.toNat_ofNat', UInt8.toNat_ofNat']
  omega

theorem fromBytes_compact (xs : List Addr) (rest : Bytes) (hp : ∀ x ∈ xs, x.port < 65536) (hr : rest.length < 6) :
    PeerEndpoint.fromBytes (xs.flatMap Addr.compact ++ rest) = xs.map epOf := by
  induction xs with
  | nil => simp [PeerEndpoint.fromBytes, chunksExact_short rest hr]
  | cons x xs ih =>
    have := ih (fun y hy => hp y (List.mem_cons_of_mem _ hy))
    unfold PeerEndpoint.fromBytes at this ⊢
    rw [List.flatMap_cons, List.append_assoc]
    have hc : x.compact ++ (xs.flatMap Addr.compact ++ rest) = x.a :: x.b :: x.c :: x.d :: UInt8.ofNat (x.port / 256) ::
      UInt8.ofNat (x.port % 256) :: (xs.flatMap Addr.compact ++ rest) := rfl
    rw [hc, chunksExact_cons6, List.map_cons, this, List.map_cons]
    exact congrArg (· :: _) (ofChunk_compact x (hp x (by simp)))

/-- Every byte string is a list of compact addresses and a rest. -/
theorem exists_compact (bytes : Bytes) : ∃ (xs : List Addr) (rest : Bytes), bytes = xs.flatMap Addr.compact ++ rest ∧
    rest.length < 6 ∧ ∀ x ∈ xs, x.port < 65536 := by
  match bytes with
  | a :: b :: c :: d :: e :: f :: t =>
    obtain ⟨xs, rest, h1, h2, h3⟩ := exists_compact t
    have he := UInt8.toNat_lt e
    have hf := UInt8.toNat_lt f
    refine ⟨⟨a, b, c, d, e.toNat * 256 + f.toNat⟩ :: xs, rest, ?_, h2, ?_⟩
    · rw [List.flatMap_cons, List.append_assoc, ← h1]
      simp only [Addr.compact, List.cons_append, List.nil_append, List.cons.injEq, true_and, and_true]
      constructor
      · apply UInt8.toNat_inj.mp
        rw [UInt8.toNat_ofNat']
        omega
      · apply UInt8.toNat_inj.mp
        rw [UInt8.toNat_ofNat']
        omega
    · intro x hx
      rcases List.mem_cons.mp hx with rfl | hx
      · simp only []; omega
      · exact h3 x hx
  | [] => exact ⟨[], [], rfl, by simp, by simp⟩
  | [a] => exact ⟨[], [a], rfl, by simp, by simp⟩
  | [a, b] => exact ⟨[], [a, b], rfl, by simp, by simp⟩
  | [a, b, c] => exact ⟨[], [a, b, c], rfl, by simp, by simp⟩
  | [a, b, c, d] => exact ⟨[], [a, b, c, d], rfl, by simp, by simp⟩
  | [a, b, c, d, e] => exact ⟨[], [a, b, c, d, e], rfl, by simp, by simp⟩
termination_by bytes.length

theorem epOf_dotted (x : Addr) : x.IsDotted (epOf x).ip :=
  ⟨_, _, _, _, isDecimal_decimal _, isDecimal_decimal _, isDecimal_decimal _, isDecimal_decimal _, by simp [epOf]⟩

theorem forall2_imp {α β : Type} {R S : α → β → Prop} {l : List α} {m : List β} (h : Forall2 R l m) (hi : ∀ a b, R a b → S a b) :
    Forall2 S l m := by
  induction h with
  | nil => exact .nil
  | cons h _ ih => exact .cons (hi _ _ h) ih

theorem forall2_map {α β : Type} {R : α → β → Prop} (f : α → β) (l : List α) (h : ∀ a ∈ l, R a (f a)) : Forall2 R l (l.map f) := by
  induction l with
  | nil => exact .nil
  | cons a l ih => exact .cons (h a (by simp)) (ih fun b hb => h b (List.mem_cons_of_mem _ hb))

/-! ### Parsing socket addresses -/

theorem takeWhile_digits (ds : Bytes) (x : UInt8) (t : Bytes) (hd : ∀ d ∈ ds, isDigit d = true) (hx : isDigit x = false) :
    (ds ++ x :: t).takeWhile isDigit = ds ∧ (ds ++ x :: t).dropWhile isDigit = x :: t := by
  induction ds with
  | nil => simp [hx]
  | cons d ds ih =>
    have h1 := hd d (by simp)
    have := ih (fun e he => hd e (List.mem_cons_of_mem _ he))
    constructor <;> simp [h1, this]

theorem takeWhile_digits_end (ds : Bytes) (hd : ∀ d ∈ ds, isDigit d = true) :
    ds.takeWhile isDigit = ds ∧ ds.dropWhile isDigit = [] := by
  induction ds with
  | nil => simp
  | cons d ds ih =>
    have h1 := hd d (by simp)
    have := ih (fun e he => hd e (List.mem_cons_of_mem _ he))
    constructor <;> simp [h1, this]

theorem decimal_digit (n : Nat) : ∀ d ∈ decimal n, isDigit d = true := isDigit_of_isDecimal (isDecimal_decimal n)

theorem decimal_foldl (n : Nat) : (decimal n).foldl (fun acc b => acc * 10 + (b.toNat - 48)) 0 = n := by
  rw [value_foldl']
  exact (isDecimal_decimal n).denotes

theorem decimal_len (n : Nat) (h : n < 1000) : (decimal n).length ≤ 3 := by
  revert n
  decide +kernel

theorem readNumber_decimal {limit : Nat} {k : Option Nat} {z : Bool} {n : Nat} {x : UInt8} {t : Bytes}
    (hn : n < limit) (hk : k = none ∨ k = some 3 ∧ n < 1000) (hx : isDigit x = false) :
    readNumber limit k z (decimal n ++ x :: t) = some (n, x :: t) := by
  obtain ⟨e1, e2⟩ := takeWhile_digits (decimal n) x t (decimal_digit n) hx
  have hd := isDecimal_decimal n
  unfold readNumber
  simp only [e1, e2, decimal_foldl]
  rw [if_neg hd.nonempty, if_neg, if_neg (by omega), if_neg]
  · rw [Bool.and_eq_true, Bool.and_eq_true]
    rintro ⟨⟨-, h2⟩, h3⟩
    have := hd.noLeadingZero (by simpa using h2)
    rw [this] at h3
    simp at h3
  · rcases hk with rfl | ⟨rfl, hk⟩
    · simp
    · have := decimal_len n hk
      simp; omega

theorem readNumber_decimal_end {limit : Nat} {n : Nat} (hn : n < limit) :
    readNumber limit none true (decimal n) = some (n, []) := by
  obtain ⟨e1, e2⟩ := takeWhile_digits_end (decimal n) (decimal_digit n)
  have hd := isDecimal_decimal n
  unfold readNumber
  simp only [e1, e2, decimal_foldl]
  rw [if_neg hd.nonempty, if_neg (by simp), if_neg (by omega), if_neg (by simp)]

theorem parse_epOf (x : Addr) (h : x.port < 65536) : parseSocketV4 (epOf x).endpoint = some x.numbers := by
  have ha := UInt8.toNat_lt x.a
  have hb := UInt8.toNat_lt x.b
  have hc := UInt8.toNat_lt x.c
  have hd := UInt8.toNat_lt x.d
  have e : (epOf x).endpoint = decimal x.a.toNat ++ c!"." :: (decimal x.b.toNat ++ c!"." :: (decimal x.c.toNat ++
      c!"." :: (decimal x.d.toNat ++ c!":" :: decimal x.port))) := by
    simp [epOf, PeerEndpoint.endpoint]
  unfold parseSocketV4
  have r1 := @readNumber_decimal 256 (some 3) false x.a.toNat c!"." (decimal x.b.toNat ++ c!"." :: (decimal x.c.toNat ++
      c!"." :: (decimal x.d.toNat ++ c!":" :: decimal x.port))) (by omega) (Or.inr ⟨rfl, by omega⟩) (by decide)
  have r2 := @readNumber_decimal 256 (some 3) false x.b.toNat c!"." (decimal x.c.toNat ++
      c!"." :: (decimal x.d.toNat ++ c!":" :: decimal x.port)) (by omega) (Or.inr ⟨rfl, by omega⟩) (by decide)
  have r3 := @readNumber_decimal 256 (some 3) false x.c.toNat c!"." (decimal x.d.toNat ++ c!":" :: decimal x.port)
    (by omega) (Or.inr ⟨rfl, by omega⟩) (by decide)
  have r4 := @readNumber_decimal 256 (some 3) false x.d.toNat c!":" (decimal x.port) (by omega) (Or.inr ⟨rfl, by omega⟩) (by decide)
  have r5 := readNumber_decimal_end (limit := 65536) h
  simp only [e, r1, r2, r3, r4, r5, readChar, if_true, Option.bind_eq_bind, Option.bind_some, Addr.numbers]

/-! ### UDP -/

theorem connectLoop_spec (net : UdpNet) (msg : Bytes) (n : Nat) : ∀ (s : UdpState) (buf : Bytes), buf.length = 16 →
    ∃ k, k ≤ n ∧ (connectLoop net msg n s buf).2.sent = s.sent ++ List.replicate k msg ∧
      (connectLoop net msg n s buf).2.recvs = s.recvs + k ∧
      (0 < n → 0 < k) ∧
      ((∀ i, i < n → net.recv (s.recvs + i) = .failed) →
        k = n ∧ (connectLoop net msg n s buf).1 = .err .noConnectionEstablished) ∧
      (∀ j d, j < n → (∀ i, i < j → net.recv (s.recvs + i) = .failed) → net.recv (s.recvs + j) = .datagram d →
        k = j + 1 ∧ (connectLoop net msg n s buf).1 = .ok ((d.take 16 ++ buf.drop d.length).drop 8)) ∧
      (∀ j, j < n → (∀ i, i < j → net.recv (s.recvs + i) = .failed) → net.recv (s.recvs + j) = .never →
        k = j + 1 ∧ (connectLoop net msg n s buf).1 = .hang) := by
  induction n with
  | zero =>
    intro s buf _
    refine ⟨0, Nat.le_refl _, by simp [connectLoop], rfl, fun h => h, fun _ => ⟨rfl, rfl⟩, fun j d h => absurd h (by omega),
      fun j h => absurd h (by omega)⟩
  | succ n ih =>
    intro s buf hb
    rw [connectLoop]
    simp only [sendUdp, readUdp]
    cases hr : net.recv s.recvs with
    | datagram d =>
      simp only []
      refine ⟨1, by omega, by simp, rfl, fun _ => by omega, ?_, ?_, ?_⟩
      · intro h
        have := h 0 (by omega)
        rw [Nat.add_zero, hr] at this
        cases this
      · intro j d' hj hf hd
        cases j with
        | zero =>
          rw [Nat.add_zero, hr] at hd
          cases hd
          refine ⟨rfl, ?_⟩
          rw [hb, sliceFrom, if_pos]
          simp only [List.length_append, List.length_take, List.length_drop]
          omega
        | succ j =>
          have := hf 0 (by omega)
          rw [Nat.add_zero, hr] at this
          cases this
      · intro j hj hf hd
        cases j with
        | zero => rw [Nat.add_zero, hr] at hd; cases hd
        | succ j =>
          have := hf 0 (by omega)
          rw [Nat.add_zero, hr] at this
          cases this
    | never =>
      simp only []
      refine ⟨1, by omega, by simp, rfl, fun _ => by omega, ?_, ?_, ?_⟩
      · intro h
        have := h 0 (by omega)
        rw [Nat.add_zero, hr] at this
        cases this
      · intro j d' hj hf hd
        cases j with
        | zero => rw [Nat.add_zero, hr] at hd; cases hd
        | succ j =>
          have := hf 0 (by omega)
          rw [Nat.add_zero, hr] at this
          cases this
      · intro j hj hf hd
        cases j with
        | zero => simp
        | succ j =>
          have := hf 0 (by omega)
          rw [Nat.add_zero, hr] at this
          cases this
    | failed =>
      simp only []
      obtain ⟨k, h1, h2, h3, h4, h5, h6, h7⟩ := ih ⟨s.sent ++ [msg], s.recvs + 1⟩ buf hb
      simp only [] at h2 h3 h5 h6 h7
      refine ⟨k + 1, by omega, ?_, by omega, fun _ => by omega, ?_, ?_, ?_⟩
      · rw [h2, List.append_assoc]; rfl
      · intro h
        obtain ⟨ha, hb'⟩ := h5 (fun i hi => by
          have := h (i + 1) (by omega)
          rw [show s.recvs + (i + 1) = s.recvs + 1 + i by omega] at this
          exact this)
        exact ⟨by omega, hb'⟩
      · intro j d hj hf hd
        cases j with
        | zero => rw [Nat.add_zero, hr] at hd; cases hd
        | succ j =>
          obtain ⟨ha, hb'⟩ := h6 j d (by omega) (fun i hi => by
            have := hf (i + 1) (by omega)
            rw [show s.recvs + (i + 1) = s.recvs + 1 + i by omega] at this
            exact this) (by rw [← hd]; congr 1; omega)
          exact ⟨by omega, hb'⟩
      · intro j hj hf hd
        cases j with
        | zero => rw [Nat.add_zero, hr] at hd; cases hd
        | succ j =>
          obtain ⟨ha, hb'⟩ := h7 j (by omega) (fun i hi => by
            have := hf (i + 1) (by omega)
            rw [show s.recvs + (i + 1) = s.recvs + 1 + i by omega] at this
            exact this) (by rw [← hd]; congr 1; omega)
          exact ⟨by omega, hb'⟩

theorem readAnnounce_datagram (net : UdpNet) (s : UdpState) (d : Bytes) (h : net.recv s.recvs = .datagram d) :
    (readAnnounce net s).1 = if 26 < d.length then .ok ((d.take 4000).drop 20) else .err .wrongResponseSize := by
  unfold readAnnounce readUdp
  rw [h]
  simp only [List.length_replicate]
  by_cases hd : 26 < d.length
  · rw [if_pos (by omega), if_pos hd]
    simp only []
    rw [slice_of_le (by omega) (by simp only [List.length_append, List.length_take, List.length_drop, List.length_replicate]; omega)]
    congr 2
    rw [List.take_append_of_le_length (by simp; omega), List.take_take, List.take_eq_take_iff]
    omega
  · rw [if_neg (by omega), if_neg hd]

end RustBit
