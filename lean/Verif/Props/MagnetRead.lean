/-
C18, exactly: which texts are taken for magnet links, and which info hash they are taken to name.
-/
import Verif.Spec.Magnet
import Verif.Props.Magnet

namespace RustBit
open Spec Magnet

theorem byteToHex_value (m : Build) (c v : UInt8) : byteToHex m c = .ok v ↔ (m = .debug → 48 ≤ c) ∧ v.toNat = charValue c.toNat := by
  have hlt := c.toNat_lt
  have le : ∀ n : Nat, n < 256 → ((UInt8.ofNat n ≤ c) ↔ n ≤ c.toNat) := by
    intro n hn
    rw [UInt8.le_iff_toNat_le, UInt8.toNat_ofNat', Nat.mod_eq_of_lt hn]
  have ge : ∀ n : Nat, n < 256 → ((c ≤ UInt8.ofNat n) ↔ c.toNat ≤ n) := by
    intro n hn
    rw [UInt8.le_iff_toNat_le, UInt8.toNat_ofNat', Nat.mod_eq_of_lt hn]
  have sub : ∀ n : Nat, n < 256 → (c - UInt8.ofNat n).toNat = (c.toNat + (256 - n)) % 256 := by
    intro n hn
    rw [UInt8.toNat_sub, UInt8.toNat_ofNat', Nat.mod_eq_of_lt hn, Nat.add_comm]
  have fin : ∀ (x : UInt8), ((.ok x : Res MagnetError UInt8) = .ok v ↔ v.toNat = x.toNat) := by
    intro x
    rw [Res.ok.injEq]
    exact ⟨fun h => by rw [h], fun h => (UInt8.toNat.inj h).symm⟩
  unfold byteToHex charValue
  have a := le 65 (by decide); have b := ge 90 (by decide); have a' := le 97 (by decide); have b' := ge 122 (by decide); have d := le 48 (by decide)
  simp only [Bool.and_eq_true, decide_eq_true_eq]
  rw [show (65 : UInt8) = UInt8.ofNat 65 from rfl, show (90 : UInt8) = UInt8.ofNat 90 from rfl, show (97 : UInt8) = UInt8.ofNat 97 from rfl,
    show (122 : UInt8) = UInt8.ofNat 122 from rfl, show (48 : UInt8) = UInt8.ofNat 48 from rfl, show (55 : UInt8) = UInt8.ofNat 55 from rfl,
    show (87 : UInt8) = UInt8.ofNat 87 from rfl]
  simp only [a, b, a', b', d]
  by_cases h1 : 65 ≤ c.toNat ∧ c.toNat ≤ 90
  · rw [if_pos h1, if_pos h1, fin, sub 55 (by decide)]
    omega
  · rw [if_neg h1, if_neg h1]
    by_cases h2 : 97 ≤ c.toNat ∧ c.toNat ≤ 122
    · rw [if_pos h2, if_pos h2, fin, sub 87 (by decide)]
      omega
    · rw [if_neg h2, if_neg h2]
      by_cases h3 : 48 ≤ c.toNat
      · rw [if_pos h3, fin, sub 48 (by decide)]
        simp [h3]
      · rw [if_neg h3]
        cases m with
        | debug => simp [h3]
        | release =>
          show (.ok (c - UInt8.ofNat 48) : Res MagnetError UInt8) = .ok v ↔ _
          rw [fin, sub 48 (by decide)]
          exact ⟨fun h => ⟨fun e => (by cases e), h⟩, fun h => h.2⟩

theorem hexDecode_loose (m : Build) : ∀ (text bytes : Bytes), text.length % 2 = 0 →
    (hexDecode m text = .ok bytes ↔ (m = .debug → ∀ c ∈ text, 48 ≤ c) ∧ Loose bytes text)
  | [], bytes, _ => by
    simp only [hexDecode, Res.ok.injEq, List.not_mem_nil, false_implies, implies_true, true_and]
    exact ⟨fun h => h ▸ .nil, fun h => by cases h; rfl⟩
  | [x], _, h => by simp at h
  | x :: y :: t, bytes, he => by
    have ih := hexDecode_loose m t
    have he' : t.length % 2 = 0 := by simp only [List.length_cons] at he; omega
    rw [hexDecode]
    constructor
    · intro h
      cases hx : byteToHex m x with
      | ok a =>
        rw [hx] at h
        cases hy : byteToHex m y with
        | ok b =>
          rw [hy] at h
          cases hr : hexDecode m t with
          | ok r =>
            rw [hr] at h
            simp only [Res.bind_ok, Res.ok.injEq] at h
            obtain ⟨x1, x2⟩ := (byteToHex_value m x a).mp hx
            obtain ⟨y1, y2⟩ := (byteToHex_value m y b).mp hy
            obtain ⟨r1, r2⟩ := (ih r he').mp hr
            subst h
            refine ⟨fun hm c hc => ?_, .cons ?_ r2⟩
            · rcases List.mem_cons.mp hc with rfl | hc
              · exact x1 hm
              · rcases List.mem_cons.mp hc with rfl | hc
                · exact y1 hm
                · exact r1 hm c hc
            · rw [UInt8.toNat_or, UInt8.toNat_shiftLeft, x2, y2, Nat.shiftLeft_eq]
              rfl
          | _ => rw [hr] at h; cases h
        | _ => rw [hy] at h; cases h
      | _ => rw [hx] at h; cases h
    · rintro ⟨hm, hl⟩
      cases hl with
      | @cons b _ _ bytes _ hb hl =>
        have vx : charValue x.toNat < 256 := by unfold charValue; have := x.toNat_lt; split <;> (try split) <;> omega
        have vy : charValue y.toNat < 256 := by unfold charValue; have := y.toNat_lt; split <;> (try split) <;> omega
        have hx := (byteToHex_value m x (UInt8.ofNat (charValue x.toNat))).mpr ⟨fun e => hm e x (by simp), by rw [UInt8.toNat_ofNat']; omega⟩
        have hy := (byteToHex_value m y (UInt8.ofNat (charValue y.toNat))).mpr ⟨fun e => hm e y (by simp), by rw [UInt8.toNat_ofNat']; omega⟩
        rw [hx, hy, (ih bytes he').mpr ⟨fun e c hc => hm e c (by simp [hc]), hl⟩]
        simp only [Res.bind_ok, Res.ok.injEq, List.cons.injEq, and_true]
        apply UInt8.toNat.inj
        rw [hb, UInt8.toNat_or, UInt8.toNat_shiftLeft, UInt8.toNat_ofNat', UInt8.toNat_ofNat', Nat.mod_eq_of_lt vx, Nat.mod_eq_of_lt vy, Nat.shiftLeft_eq]
        rfl

/-- C18, for all texts: exactly those that begin with `magnet:?` and have more than sixty bytes are taken for links (in debug builds, if no character in the place of the digits is
below `0`), whatever is in the twelve bytes after that. If `&` is in the place of byte 60 the hash is what the forty bytes before it count as, digits or not; otherwise it is
the 32 bytes from byte 20 as they are. -/
theorem C18_reads (m : Build) (uri hash : Bytes) : parseMagnet m uri = .ok hash ↔ b!"magnet:?" <+: uri ∧
    ((∃ pre text rest, uri = pre ++ text ++ c!"&" :: rest ∧ pre.length = 20 ∧ text.length = 40 ∧ (m = .debug → ∀ c ∈ text, 48 ≤ c) ∧ Loose hash text) ∨
     (∃ pre more c rest, uri = pre ++ hash ++ more ++ c :: rest ∧ pre.length = 20 ∧ hash.length = 32 ∧ more.length = 8 ∧ c ≠ c!"&")) := by
  rw [parseMagnet_cases]
  by_cases hv : uri.length < 60 ∨ ¬ b!"magnet:?" <+: uri
  · rw [if_pos hv]
    refine ⟨fun h => (by cases h), ?_⟩
    rintro ⟨hp, h⟩
    have hl : uri.length < 60 := hv.resolve_right (fun h => h hp)
    rcases h with ⟨pre, text, rest, rfl, h1, h2, -⟩ | ⟨pre, more, c, rest, rfl, h1, h2, h3, -⟩
    · simp at hl; omega
    · simp at hl; omega
  · rw [if_neg hv]
    rw [not_or, Classical.not_not] at hv
    cases h60 : uri[60]? with
    | none =>
      refine ⟨fun h => (by cases h), ?_⟩
      have := List.getElem?_eq_none_iff.mp h60
      rintro ⟨-, ⟨pre, text, rest, rfl, h1, h2, -⟩ | ⟨pre, more, c, rest, rfl, h1, h2, h3, -⟩⟩
      · simp at this; omega
      · simp at this; omega
    | some c =>
      have hlen := (List.getElem?_eq_some_iff.mp h60).1
      have hdec : uri = uri.take 60 ++ c :: uri.drop 61 := by
        have := List.drop_eq_getElem_cons hlen
        rw [(List.getElem?_eq_some_iff.mp h60).2] at this
        rw [← this, List.take_append_drop]
      have at60 : ∀ (a : Bytes) (x : UInt8) (rest : Bytes), uri = a ++ x :: rest → a.length = 60 → x = c ∧ a = uri.take 60 := by
        intro a x rest h ha
        have h' := h60
        rw [h, List.getElem?_append_right (by omega), ha] at h'
        refine ⟨by simpa using h', ?_⟩
        rw [h, ← ha, List.take_left']
        rfl
      have h20 : (uri.take 60).take 20 ++ (uri.take 60).drop 20 = uri.take 60 := List.take_append_drop _ _
      have l40 : ((uri.take 60).drop 20).length = 40 := by simp; omega
      show (if c = c!"&" then _ else _) = _ ↔ _
      by_cases hc : c = c!"&"
      · rw [if_pos hc, hexDecode_loose m _ _ (by rw [l40])]
        constructor
        · rintro ⟨h1, h2⟩
          refine ⟨hv.2, Or.inl ⟨(uri.take 60).take 20, (uri.take 60).drop 20, uri.drop 61, ?_, by simp; omega, l40, h1, h2⟩⟩
          rw [h20, ← hc, ← hdec]
        · rintro ⟨-, ⟨pre, text, rest, h, h1, h2, h3, h4⟩ | ⟨pre, more, x, rest, h, h1, h2, h3, hx⟩⟩
          · have := (at60 _ _ _ h (by simp; omega)).2
            rw [← this, ← h1, List.drop_left]
            exact ⟨h3, h4⟩
          · exact absurd ((at60 _ _ _ h (by simp; omega)).1.trans hc) hx
      · rw [if_neg hc, Res.ok.injEq]
        constructor
        · rintro rfl
          refine ⟨hv.2, Or.inr ⟨uri.take 20, (uri.take 60).drop 52, c, uri.drop 61, ?_, by simp; omega, by simp; omega, by simp; omega, hc⟩⟩
          have e1 : uri.take 20 ++ (uri.take 52).drop 20 = uri.take 52 := by
            have := List.take_append_drop 20 (uri.take 52)
            rwa [List.take_take] at this
          have e2 : uri.take 52 ++ (uri.take 60).drop 52 = uri.take 60 := by
            have := List.take_append_drop 52 (uri.take 60)
            rwa [List.take_take] at this
          rw [e1, e2, ← hdec]
        · rintro ⟨-, ⟨pre, text, rest, h, h1, h2, h3, h4⟩ | ⟨pre, more, x, rest, h, h1, h2, h3, hx⟩⟩
          · exact absurd (at60 _ _ _ h (by simp; omega)).1.symm hc
          · have hl : (pre ++ hash).length = 52 := by simp; omega
            rw [h, List.append_assoc, ← hl, List.take_left, ← h1, List.drop_left]

/-- A text without any hash in it, taken for a magnet link in either build: forty characters that are no digits. `Z` counts as 35, `z` too, and `35·16 mod 256` or'ed with 35 is 51. -/
example (m : Build) : parseMagnet m (b!"magnet:?xxxxxxxxxxxx" ++ List.replicate 20 c!"Z" ++ List.replicate 20 c!"z" ++ b!"&") = .ok (List.replicate 20 51) := by
  rw [C18_reads]
  refine ⟨by decide, Or.inl ⟨b!"magnet:?xxxxxxxxxxxx", List.replicate 20 c!"Z" ++ List.replicate 20 c!"z", [], rfl, rfl, rfl, fun _ => by decide, ?_⟩⟩
  exact .cons rfl (.cons rfl (.cons rfl (.cons rfl (.cons rfl (.cons rfl (.cons rfl (.cons rfl (.cons rfl (.cons rfl
    (.cons rfl (.cons rfl (.cons rfl (.cons rfl (.cons rfl (.cons rfl (.cons rfl (.cons rfl (.cons rfl (.cons rfl .nil)))))))))))))))))))

/-- Forty dashes: in release builds they are a hash, in debug builds not. -/
example : parseMagnet .release (b!"magnet:?xt=urn:btih:" ++ List.replicate 40 c!"-" ++ b!"&") = .ok (List.replicate 20 253) ∧
    ¬ ∃ hash, parseMagnet .debug (b!"magnet:?xt=urn:btih:" ++ List.replicate 40 c!"-" ++ b!"&") = .ok hash :=
  ⟨rfl, fun ⟨_, h⟩ => by cases h⟩

end RustBit
