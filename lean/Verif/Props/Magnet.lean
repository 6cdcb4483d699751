/-
Properties C18, C19, C20: magnet links.
-/
import Verif.Model.Magnet
import Verif.Spec.Info

namespace RustBit
open Spec Magnet

theorem byteToHex_hexDigit (m : Build) {c : UInt8} {n : Nat} (h : HexDigit c n) :
    byteToHex m c = .ok (UInt8.ofNat n) ∧ n < 16 := by
  cases h with
  | dec hn =>
    have : n = 0 ∨ n = 1 ∨ n = 2 ∨ n = 3 ∨ n = 4 ∨ n = 5 ∨ n = 6 ∨ n = 7 ∨ n = 8 ∨ n = 9 := by omega
    rcases this with rfl | rfl | rfl | rfl | rfl | rfl | rfl | rfl | rfl | rfl <;>
      exact ⟨rfl, by decide⟩
  | upper h1 h2 =>
    have : n = 10 ∨ n = 11 ∨ n = 12 ∨ n = 13 ∨ n = 14 ∨ n = 15 := by omega
    rcases this with rfl | rfl | rfl | rfl | rfl | rfl <;> exact ⟨rfl, by decide⟩
  | lower h1 h2 =>
    have : n = 10 ∨ n = 11 ∨ n = 12 ∨ n = 13 ∨ n = 14 ∨ n = 15 := by omega
    rcases this with rfl | rfl | rfl | rfl | rfl | rfl <;> exact ⟨rfl, by decide⟩

theorem nibbles (b : UInt8) : (UInt8.ofNat (b.toNat / 16)) <<< 4 ||| UInt8.ofNat (b.toNat % 16) = b := by
  have h : ∀ n : Fin 256, (UInt8.ofNat (n.val / 16)) <<< 4 ||| UInt8.ofNat (n.val % 16)
      = UInt8.ofNat n.val := by decide +kernel
  have := h ⟨b.toNat, b.toNat_lt⟩
  simpa using this

theorem hexDecode_hex (m : Build) {bs cs : Bytes} (h : Hex bs cs) : hexDecode m cs = .ok bs := by
  induction h with
  | nil => rfl
  | cons h1 h2 _ ih =>
    rw [hexDecode, (byteToHex_hexDigit m h1).1, (byteToHex_hexDigit m h2).1]
    simp only [Res.bind_ok, ih, nibbles]

theorem hex_length {bs cs : Bytes} (h : Hex bs cs) : cs.length = 2 * bs.length := by
  induction h with
  | nil => rfl
  | cons _ _ _ ih => simp [ih]; omega

/-- The fixed start of a BitTorrent magnet link. -/
def btihPrefix : Bytes := b!"magnet:?xt=urn:btih:"

/-- C18, when at least one further parameter follows: the 40 hexadecimal digits (in any letter case)
of any 20-byte hash give exactly this hash, in both build modes. Missing: a magnet link that ends
after the hash, on which the program panics (`C18_refuted`). -/
theorem C18_hex_magnet_partial (m : Build) (hash digits params : Bytes) (hl : hash.length = 20)
    (hx : Hex hash digits) :
    parseMagnet m (btihPrefix ++ digits ++ c!"&" :: params) = .ok hash := by
  have hd : digits.length = 40 := by rw [hex_length hx, hl]
  have hlen : (btihPrefix ++ digits ++ c!"&" :: params).length = 61 + params.length := by
    simp [btihPrefix, hd]; omega
  have hv : verifyInfoHash (btihPrefix ++ digits ++ c!"&" :: params) = false := by
    unfold verifyInfoHash
    rw [hlen]
    have : (btihPrefix ++ digits ++ c!"&" :: params).take 8 = b!"magnet:?" := by
      simp [btihPrefix]
    rw [this]
    simp; omega
  rw [parseMagnet, hv]
  simp only [Bool.false_eq_true, if_false]
  rw [parseInfoHash]
  have h60 : (btihPrefix ++ digits ++ c!"&" :: params)[60]? = some c!"&" := by
    have : (btihPrefix ++ digits).length = 60 := by simp [btihPrefix, hd]
    rw [List.getElem?_append_right (by omega), this]
    rfl
  have hs : (slice (btihPrefix ++ digits ++ c!"&" :: params) 20 60 : Res MagnetError Bytes)
      = .ok digits := by
    unfold slice
    rw [if_pos ⟨by omega, by omega⟩]
    congr 1
    have : (btihPrefix ++ digits).length = 60 := by simp [btihPrefix, hd]
    rw [List.take_append_of_le_length (by omega), List.take_of_length_le (by omega)]
    exact List.drop_left (l₁ := btihPrefix)
  simp only [index, h60, Res.bind_ok, if_true, hs, hexDecode_hex m hx]

example : Hex [0xA6, 0x0f] b!"a60F" :=
  .cons (.lower (n := 10) (by decide) (by decide)) (.dec (n := 6) (by decide))
    (.cons (.dec (n := 0) (by decide)) (.upper (n := 15) (by decide) (by decide)) .nil)

/-- Every 20-byte hash has such a notation, so the hypotheses of C18 are satisfiable. -/
theorem hex_exists (hash : Bytes) : ∃ digits, Hex hash digits := by
  have hd : ∀ n, n < 16 → ∃ c, HexDigit c n := by
    intro n h
    by_cases h9 : n < 10
    · exact ⟨_, .dec h9⟩
    · exact ⟨_, .lower (by omega) h⟩
  induction hash with
  | nil => exact ⟨[], .nil⟩
  | cons b t ih =>
    obtain ⟨cs, h⟩ := ih
    obtain ⟨x, hx⟩ := hd (b.toNat / 16) (by have := b.toNat_lt; omega)
    obtain ⟨y, hy⟩ := hd (b.toNat % 16) (by omega)
    exact ⟨x :: y :: cs, .cons hx hy h⟩

/-- The full C18 is false: a magnet link without further parameters makes the parser panic, whatever
the hash. -/
theorem C18_refuted (m : Build) (hash digits : Bytes) (hl : hash.length = 20) (hx : Hex hash digits) :
    parseMagnet m (btihPrefix ++ digits) = .panic := by
  have hd : digits.length = 40 := by rw [hex_length hx, hl]
  have hlen : (btihPrefix ++ digits).length = 60 := by simp [btihPrefix, hd]
  have hv : verifyInfoHash (btihPrefix ++ digits) = false := by
    unfold verifyInfoHash
    rw [hlen]
    have : (btihPrefix ++ digits).take 8 = b!"magnet:?" := by simp [btihPrefix]
    rw [this]
    simp
  rw [parseMagnet, hv]
  simp only [Bool.false_eq_true, if_false]
  rw [parseInfoHash, index, List.getElem?_eq_none (by omega)]
  rfl

theorem hexDecode_length (m : Build) (cs : Bytes) (h : Bytes) (hh : hexDecode m cs = .ok h) :
    h.length = cs.length / 2 := by
  match cs with
  | [] => simp only [hexDecode, Res.ok.injEq] at hh; subst hh; rfl
  | [x] => simp only [hexDecode, Res.ok.injEq] at hh; subst hh; simp
  | x :: y :: t =>
    rw [hexDecode] at hh
    cases hx : byteToHex m x <;> simp only [hx, Res.bind_ok, Res.bind_err, Res.bind_panic,
      Res.bind_hang, reduceCtorEq] at hh
    cases hy : byteToHex m y <;> simp only [hy, Res.bind_ok, Res.bind_err, Res.bind_panic,
      Res.bind_hang, reduceCtorEq] at hh
    cases ht : hexDecode m t <;> simp only [ht, Res.bind_ok, Res.bind_err, Res.bind_panic,
      Res.bind_hang, reduceCtorEq, Res.ok.injEq] at hh
    subst hh
    have := hexDecode_length m t _ ht
    simp [this]
    omega

/-- C19, the provable part: the info hash has 20 bytes if byte 60 of the link is `&` (a hex magnet),
and 32 bytes otherwise. Missing: 20 bytes for base32 magnets (refuted below). -/
theorem C19_hash_length_partial (m : Build) (uri h : Bytes) (hp : parseMagnet m uri = .ok h) :
    (uri[60]? = some c!"&" → h.length = 20) ∧ (uri[60]? ≠ some c!"&" → h.length = 32) := by
  rw [parseMagnet] at hp
  split at hp
  · cases hp
  · rw [parseInfoHash] at hp
    unfold index at hp
    cases h60 : uri[60]? with
    | none => simp [h60] at hp
    | some c =>
      have hlen := (List.getElem?_eq_some_iff.mp h60).1
      simp only [h60, Res.bind_ok] at hp
      split at hp
      · rename_i hc
        subst hc
        unfold slice at hp
        rw [if_pos ⟨by omega, by omega⟩] at hp
        simp only [Res.bind_ok] at hp
        have := hexDecode_length m _ h hp
        simp at this
        refine ⟨fun _ => ?_, fun hne => absurd rfl hne⟩
        rw [this]; omega
      · rename_i hc
        unfold slice at hp
        rw [if_pos ⟨by omega, by omega⟩] at hp
        simp only [Res.ok.injEq] at hp
        subst hp
        refine ⟨fun he => absurd (by simpa using he) hc, fun _ => ?_⟩
        simp; omega

/-- A base32 magnet link (the one of the repository's test, shortened). -/
def base32Magnet : Bytes := b!"magnet:?xt=urn:btih:G27L4RSWJP5UK2XU6U35LCRHEEV57INR&dn=See.S03E01"

/-- The full C19 is false: a base32 magnet yields the 32 text bytes, not the 20 bytes they encode. -/
theorem C19_refuted (m : Build) :
    parseMagnet m base32Magnet = .ok b!"G27L4RSWJP5UK2XU6U35LCRHEEV57INR" := by
  cases m <;> rfl

example : ∃ h, parseMagnet .debug
    (btihPrefix ++ b!"A6e449c2281e62edbf8cdb447413ca288cf0e568" ++ b!"&dn=x") = .ok h := ⟨_, rfl⟩

/-- The full C20 is false: this 60-byte string makes the parser panic in every build. -/
theorem C20_refuted (m : Build) :
    parseMagnet m (b!"magnet:?" ++ List.replicate 52 c!"0") = .panic := by
  cases m <;> rfl

/-- In debug builds a character below `'0'` among the digits also panics. -/
theorem C20_refuted_underflow :
    parseMagnet .debug (btihPrefix ++ List.replicate 40 c!"-" ++ b!"&") = .panic := rfl

theorem byteToHex_ok (m : Build) (c : UInt8) (h : m = .release ∨ 48 ≤ c) :
    ∃ x, byteToHex m c = .ok x := by
  unfold byteToHex
  split
  · exact ⟨_, rfl⟩
  · split
    · exact ⟨_, rfl⟩
    · split
      · exact ⟨_, rfl⟩
      · rename_i h3
        cases h with
        | inl h => subst h; exact ⟨_, rfl⟩
        | inr h => exact absurd h h3

theorem hexDecode_ok (m : Build) (cs : Bytes) (h : m = .release ∨ ∀ c ∈ cs, 48 ≤ c) :
    ∃ r, hexDecode m cs = .ok r := by
  match cs with
  | [] => exact ⟨_, rfl⟩
  | [x] => exact ⟨_, rfl⟩
  | x :: y :: t =>
    obtain ⟨a, ha⟩ := byteToHex_ok m x (h.imp id (fun h => h x (by simp)))
    obtain ⟨b, hb⟩ := byteToHex_ok m y (h.imp id (fun h => h y (by simp)))
    obtain ⟨r, hr⟩ := hexDecode_ok m t (h.imp id (fun h c hc => h c (by simp [hc])))
    exact ⟨(a <<< 4 ||| b) :: r, by rw [hexDecode, ha, hb]; simp only [Res.bind_ok, hr]⟩

/-- C20, the provable part: the parser never panics unless the input has exactly 60 bytes or (debug
builds) a byte below `'0'` among the digits. Missing: those inputs (refuted above). -/
theorem C20_no_panic_partial (m : Build) (uri : Bytes) (hl : uri.length ≠ 60)
    (hd : m = .release ∨ ∀ c ∈ (uri.take 60).drop 20, 48 ≤ c) : (parseMagnet m uri).returns := by
  rw [parseMagnet]
  split
  · trivial
  · rename_i hv
    have hlen : 60 < uri.length := by
      unfold verifyInfoHash at hv
      simp at hv
      omega
    rw [parseInfoHash, index, List.getElem?_eq_getElem hlen]
    simp only [Res.bind_ok]
    split
    · rw [slice, if_pos ⟨by omega, by omega⟩]
      simp only [Res.bind_ok]
      obtain ⟨r, hr⟩ := hexDecode_ok m _ hd
      rw [hr]; trivial
    · rw [slice, if_pos ⟨by omega, by omega⟩]; trivial

example : let uri := btihPrefix ++ b!"A6e449c2281e62edbf8cdb447413ca288cf0e568" ++ b!"&dn=x"
    uri.length ≠ 60 ∧ ∀ c ∈ (uri.take 60).drop 20, 48 ≤ c := by decide

/-! ### Exactly -/

theorem prefix_take8 (uri : Bytes) : b!"magnet:?" <+: uri ↔ uri.take 8 = b!"magnet:?" := by
  rw [List.prefix_iff_eq_take]
  exact ⟨fun h => h.symm, fun h => h.symm⟩

/-- The three outcomes of parsing a magnet link. -/
theorem parseMagnet_cases (m : Build) (uri : Bytes) :
    parseMagnet m uri = if uri.length < 60 ∨ ¬ b!"magnet:?" <+: uri then .err .noMagnet
      else match uri[60]? with
        | none => .panic
        | some c => if c = c!"&" then hexDecode m ((uri.take 60).drop 20) else .ok ((uri.take 52).drop 20) := by
  rw [parseMagnet]
  by_cases hv : verifyInfoHash uri = true
  · rw [if_pos hv, if_pos]
    rw [prefix_take8]
    unfold verifyInfoHash at hv
    simp only [Bool.or_eq_true, decide_eq_true_eq, bne_iff_ne, ne_eq] at hv
    exact hv
  · have hv' := hv
    unfold verifyInfoHash at hv
    simp only [Bool.or_eq_true, decide_eq_true_eq, bne_iff_ne, ne_eq] at hv
    rw [if_neg hv', if_neg (by rw [prefix_take8]; exact hv), parseInfoHash, index]
    cases h60 : uri[60]? with
    | none => rfl
    | some c =>
      have hlen := (List.getElem?_eq_some_iff.mp h60).1
      simp only [Res.bind_ok]
      have h1 : (slice uri 20 60 : Res MagnetError Bytes) = .ok ((uri.take 60).drop 20) := by rw [slice, if_pos ⟨by omega, by omega⟩]
      have h2 : (slice uri 20 52 : Res MagnetError Bytes) = .ok ((uri.take 52).drop 20) := by rw [slice, if_pos ⟨by omega, by omega⟩]
      rw [h1, h2]
      rfl

theorem hexDecode_panic (m : Build) (cs : Bytes) (he : cs.length % 2 = 0) :
    hexDecode m cs = .panic ↔ m = .debug ∧ ∃ c ∈ cs, c < 48 := by
  match cs with
  | [] => simp [hexDecode]
  | [x] => simp at he
  | x :: y :: t =>
    have ih := hexDecode_panic m t (by simp only [List.length_cons] at he; omega)
    have key : ∀ c : UInt8, (∃ v, byteToHex m c = .ok v) ∨ (byteToHex m c = .panic ∧ m = .debug ∧ c < 48) := by
      intro c
      unfold byteToHex
      split
      · exact .inl ⟨_, rfl⟩
      · split
        · exact .inl ⟨_, rfl⟩
        · split
          · exact .inl ⟨_, rfl⟩
          · rename_i h3
            cases m with
            | debug => exact .inr ⟨rfl, rfl, by simpa using h3⟩
            | release => exact .inl ⟨_, rfl⟩
    have nk : ∀ c : UInt8, m = .debug → c < 48 → byteToHex m c = .panic := by
      intro c hm hc
      subst hm
      have hc' : c.toNat < 48 := hc
      unfold byteToHex
      rw [if_neg, if_neg, if_neg]
      · simpa using hc
      · simp only [Bool.and_eq_true, decide_eq_true_eq, not_and]
        intro h
        have : 97 ≤ c.toNat := h
        omega
      · simp only [Bool.and_eq_true, decide_eq_true_eq, not_and]
        intro h
        have : 65 ≤ c.toNat := h
        omega
    rw [hexDecode]
    rcases key x with ⟨a, ha⟩ | ⟨hx, hm, hlt⟩
    · rcases key y with ⟨b, hb⟩ | ⟨hy, hm, hlt⟩
      · rw [ha, hb]
        simp only [Res.bind_ok]
        constructor
        · intro h
          have : hexDecode m t = .panic := by
            cases ht : hexDecode m t <;> simp [ht] at h ⊢
          obtain ⟨h1, c, hc, h2⟩ := ih.mp this
          exact ⟨h1, c, by simp [hc], h2⟩
        · rintro ⟨h1, c, hc, h2⟩
          simp only [List.mem_cons] at hc
          rcases hc with rfl | rfl | hc
          · rw [nk _ h1 h2] at ha; cases ha
          · rw [nk _ h1 h2] at hb; cases hb
          · rw [ih.mpr ⟨h1, c, hc, h2⟩]; rfl
      · rw [ha, hy]
        simp only [Res.bind_ok, Res.bind_panic, true_iff]
        exact ⟨hm, y, by simp, hlt⟩
    · rw [hx]
      simp only [Res.bind_panic, true_iff]
      exact ⟨hm, x, by simp, hlt⟩

/-- C20, exactly the inputs on which the parser panics: those that start with `magnet:?` and have 60 bytes, and in debug builds those with `&`
at position 60 and a byte below `0` among the forty before it. -/
theorem C20_exact (m : Build) (uri : Bytes) : parseMagnet m uri = .panic ↔
    b!"magnet:?" <+: uri ∧ (uri.length = 60 ∨ (m = .debug ∧ uri[60]? = some c!"&" ∧ ∃ c ∈ (uri.take 60).drop 20, c < 48)) := by
  rw [parseMagnet_cases]
  by_cases hv : uri.length < 60 ∨ ¬ b!"magnet:?" <+: uri
  · rw [if_pos hv]
    simp only [reduceCtorEq, false_iff, not_and, not_or]
    intro hp
    have hl : uri.length < 60 := hv.resolve_right (fun h => h hp)
    refine ⟨by omega, fun _ h => ?_⟩
    rw [List.getElem?_eq_none (by omega)] at h
    cases h
  · rw [if_neg hv]
    rw [not_or, Classical.not_not] at hv
    cases h60 : uri[60]? with
    | none =>
      have := List.getElem?_eq_none_iff.mp h60
      simp only [true_iff]
      exact ⟨hv.2, .inl (by omega)⟩
    | some c =>
      have hlen := (List.getElem?_eq_some_iff.mp h60).1
      have hne : uri.length ≠ 60 := by omega
      simp only [hv.2, hne, false_or, true_and, Option.some.injEq]
      by_cases hc : c = c!"&"
      · rw [if_pos hc, hexDecode_panic m _ (by simp; omega)]
        simp only [hc, true_and]
      · simp [hc]

/-- Non-vacuity: such an input of each kind, and one that does not panic. -/
example : parseMagnet .debug (btihPrefix ++ List.replicate 39 c!"0" ++ b!"-&") = .panic ∧
    ∃ h, parseMagnet .release (btihPrefix ++ List.replicate 39 c!"0" ++ b!"-&") = .ok h := ⟨rfl, _, rfl⟩

/-- C19, exactly: the info hash has 20 bytes just if byte 60 of the link is `&`. -/
theorem C19_exact (m : Build) (uri h : Bytes) (hp : parseMagnet m uri = .ok h) : h.length = 20 ↔ uri[60]? = some c!"&" := by
  have := C19_hash_length_partial m uri h hp
  constructor
  · intro hl
    by_cases hc : uri[60]? = some c!"&"
    · exact hc
    · have := this.2 hc
      omega
  · exact this.1

/-- C18, exactly: what follows the digits must begin with `&`. -/
theorem C18_exact (m : Build) (hash digits rest : Bytes) (hl : hash.length = 20) (hx : Hex hash digits) :
    parseMagnet m (btihPrefix ++ digits ++ rest) = .ok hash ↔ rest.head? = some c!"&" := by
  have hd : digits.length = 40 := by rw [hex_length hx, hl]
  constructor
  · intro h
    have := (C19_exact m _ _ h).mp hl
    have h60 : (btihPrefix ++ digits).length = 60 := by simp [btihPrefix, hd]
    rw [List.getElem?_append_right (by omega), h60] at this
    simpa [List.head?_eq_getElem?] using this
  · intro h
    cases rest with
    | nil => cases h
    | cons c t =>
      simp only [List.head?_cons, Option.some.injEq] at h
      subst h
      exact C18_hex_magnet_partial m hash digits t hl hx

/-- Another reason why the full C18 is false: the parameters may come in any order in a magnet link, but if the name comes first the link is
accepted with something else for the hash: the 32 characters from position 20 on. -/
theorem C18_refuted_order (m : Build) (hash digits : Bytes) (hl : hash.length = 20) (hx : Hex hash digits) :
    parseMagnet m (b!"magnet:?dn=x&xt=urn:btih:" ++ digits ++ b!"&tr=y") = .ok (b!"btih:" ++ digits.take 27) := by
  have hd : digits.length = 40 := by rw [hex_length hx, hl]
  have hasc : ∀ c ∈ digits, c ≠ c!"&" := by
    clear hd hl
    have hdig : ∀ c n, HexDigit c n → c ≠ c!"&" := by
      intro c n h e
      subst e
      have h1 := byteToHex_hexDigit .debug h
      exact absurd h1.1 (by simp [byteToHex])
    induction hx with
    | nil => intro c hc; cases hc
    | cons h1 h2 _ ih =>
      intro c hc
      simp only [List.mem_cons] at hc
      rcases hc with rfl | rfl | hc
      · exact hdig _ _ h1
      · exact hdig _ _ h2
      · exact ih c hc
  have hlen : (b!"magnet:?dn=x&xt=urn:btih:" ++ digits ++ b!"&tr=y").length = 70 := by simp [hd]
  have hpre : b!"magnet:?" <+: b!"magnet:?dn=x&xt=urn:btih:" ++ digits ++ b!"&tr=y" := ⟨b!"dn=x&xt=urn:btih:" ++ digits ++ b!"&tr=y", rfl⟩
  rw [parseMagnet_cases, if_neg (by rw [not_or, Classical.not_not]; exact ⟨by omega, hpre⟩)]
  have h60 : (b!"magnet:?dn=x&xt=urn:btih:" ++ digits ++ b!"&tr=y")[60]? = digits[35]? := by
    rw [List.getElem?_append_left (by simp [hd]), List.getElem?_append_right (by simp)]
    rfl
  rw [h60, List.getElem?_eq_getElem (by omega)]
  simp only [if_neg (hasc _ (List.getElem_mem _))]
  congr 1
  rw [List.append_assoc, List.take_append, List.drop_append]
  simp only [List.length_cons, List.length_nil, Nat.zero_add, Nat.reduceAdd, Nat.reduceSub]
  rw [List.take_append_of_le_length (by omega)]
  rfl

/-- Nor is text refused that is no hexadecimal number: forty letters `z` are taken for the hash that forty digits `3` stand for. -/
theorem C18_refuted_not_hex (m : Build) : (∀ hash, ¬ Hex hash (List.replicate 40 c!"z")) ∧
    parseMagnet m (btihPrefix ++ List.replicate 40 c!"z" ++ b!"&") = .ok (List.replicate 20 0x33) ∧
    parseMagnet m (btihPrefix ++ List.replicate 40 c!"3" ++ b!"&") = .ok (List.replicate 20 0x33) := by
  refine ⟨fun hash h => ?_, by cases m <;> decide +kernel, by cases m <;> decide +kernel⟩
  have hz : ∀ c n, HexDigit c n → c ≠ c!"z" := by
    intro c n h e
    have h2 := congrArg UInt8.toNat e
    cases h <;> · rw [UInt8.toNat_ofNat'] at h2; simp at h2; omega
  cases h with
  | cons h1 => exact hz _ _ h1 rfl

end RustBit
