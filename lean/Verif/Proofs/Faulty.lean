/-
Exactly the inputs the decoder refuses, and with which error.
-/
import Verif.Proofs.Cut
import Verif.Spec.Errors

namespace RustBit
open Spec Decoder

/-- The error for a fault, seen from position `p`. -/
def faultError (p : Nat) : InputFault → DecoderError
  | .number ds => .badNumberDecode ds
  | .key q => .badStringFromBytes (p + q)

theorem faultError_after (p n : Nat) (f : InputFault) : faultError p (f.after n) = faultError (p + n) f := by
  cases f <;> simp [InputFault.after, faultError, Nat.add_assoc]

theorem getConsecutiveDigits_err {c : Bytes} {p : Nat} {e : DecoderError} :
    getConsecutiveDigits c p = .err e ↔ ∃ ds, BadNumber (c.drop p) ds ∧ e = .badNumberDecode ds := by
  constructor
  · intro h
    unfold getConsecutiveDigits at h
    split at h
    · cases h
    · rename_i k hk
      obtain ⟨x, t, e, hd, hx, hl⟩ := countDigits_some hk
      have hlen : p + k ≤ c.length := by simp at hl; omega
      rw [slice_of_le (by omega) hlen] at h
      have hs : (c.take (p + k)).drop p = (c.drop p).take k := by
        rw [List.drop_take]; congr 1; omega
      rw [hs] at h
      simp only [Res.bind_ok, validUtf8_digits _ hd, if_true] at h
      split at h
      · cases h
      · rename_i hn
        simp only [Res.err.injEq] at h
        refine ⟨_, ⟨x, t, e, hd, hx, ?_⟩, h.symm⟩
        rw [parseUsize_eq] at hn
        split at hn
        · exact .inl (by assumption)
        · split at hn
          · cases hn
          · exact .inr (by omega)
  · rintro ⟨ds, ⟨x, t, e, hd, hx, hbad⟩, rfl⟩
    unfold getConsecutiveDigits
    rw [e, countDigits_append ds x t hd hx]
    have hlen : p + ds.length ≤ c.length := by
      have := congrArg List.length e
      simp at this
      omega
    simp only [slice_of_le (Nat.le_add_right p ds.length) hlen, Res.bind_ok]
    have hs : (c.take (p + ds.length)).drop p = ds := by
      rw [List.drop_take, e, Nat.add_sub_cancel_left]; simp
    rw [hs]
    simp only [validUtf8_digits _ hd, if_true]
    rw [parseUsize_eq]
    split
    · rename_i h
      split at h
      · cases h
      · rename_i h1
        split at h
        · rename_i h2
          rcases hbad with h3 | h3
          · exact absurd h3 h1
          · omega
        · cases h
    · rfl

theorem parseInteger_faulty {c : Bytes} {p : Nat} {e : DecoderError} :
    parseInteger c p = .err e ↔ ∃ ds, BadNumber (c.drop (p + 1)) ds ∧ e = .badNumberDecode ds := by
  rw [← getConsecutiveDigits_err]
  unfold parseInteger
  cases h : getConsecutiveDigits c (p + 1) <;> simp

theorem parseString_faulty {c : Bytes} {p : Nat} {e : DecoderError} :
    parseString c p = .err e ↔ ∃ ds, BadNumber (c.drop p) ds ∧ e = .badNumberDecode ds := by
  rw [← getConsecutiveDigits_err]
  unfold parseString
  cases h : getConsecutiveDigits c p with
  | ok a =>
    simp only [Res.bind_ok, reduceCtorEq, iff_false]
    unfold slice
    split <;> simp
  | _ => simp

theorem faulty_head {d : Bytes} {f : InputFault} (h : Faulty d f) : ∃ b t, d = b :: t ∧ b ≠ 101 := by
  cases h with
  | int _ => exact ⟨105, _, rfl, by decide⟩
  | list _ => exact ⟨108, _, rfl, by decide⟩
  | dict _ => exact ⟨100, _, rfl, by decide⟩
  | str h1 h2 _ =>
    refine ⟨_, _, rfl, ?_⟩
    rintro rfl
    exact absurd h2 (by decide)

mutual
theorem err_of_faulty {d : Bytes} {x : InputFault} (h : Faulty d x) (c : Bytes) (p : Nat) (e : c.drop p = d) :
    ∃ f, decodeF f c p = .err (faultError p x) := by
  match h with
  | .int hd =>
    refine ⟨1, ?_⟩
    rw [decodeF, getElem?_of_drop e]
    simp only [if_true]
    exact parseInteger_faulty.mpr ⟨_, by rw [drop_succ e]; exact hd, rfl⟩
  | .str (b := b) (c := c') h1 h2 hs =>
    refine ⟨1, ?_⟩
    have hdig : isDigit b = true := by
      rw [isDigit_iff]
      simp only [UInt8.le_iff_toNat_le, UInt8.reduceToNat] at h1 h2
      omega
    have hn := digit_ne hdig
    rw [decodeF, getElem?_of_drop e]
    simp only [hn.1, hn.2.1, hn.2.2.1, if_false]
    rw [if_pos (by simp [h1, h2]), parseString_faulty.mpr ⟨_, by rw [e]; exact hs, rfl⟩]
    rfl
  | .list hs =>
    obtain ⟨f, hf⟩ := err_of_faultyElems hs c (p + 1) (drop_succ e) []
    refine ⟨f + 1, ?_⟩
    rw [decodeF, getElem?_of_drop e]
    simp only [show (108 : UInt8) ≠ 105 by decide, if_false, if_true]
    rw [faultError_after]
    exact hf
  | .dict hs =>
    obtain ⟨f, hf⟩ := err_of_faultyEntries hs c (p + 1) (drop_succ e) []
    refine ⟨f + 1, ?_⟩
    rw [decodeF, getElem?_of_drop e]
    simp only [show (100 : UInt8) ≠ 105 by decide, show (100 : UInt8) ≠ 108 by decide, if_false, if_true]
    rw [faultError_after]
    exact hf
theorem err_of_faultyElems {d : Bytes} {x : InputFault} (h : FaultyElems d x) (c : Bytes) (p : Nat) (e : c.drop p = d) (acc : List Metainfo) :
    ∃ f, listLoop f c p acc = .err (faultError p x) := by
  match h with
  | .inner hs =>
    obtain ⟨f, hf⟩ := err_of_faulty hs c p e
    obtain ⟨b, t, rfl, hb⟩ := faulty_head hs
    refine ⟨f + 1, ?_⟩
    rw [listLoop, getElem?_of_drop e]
    simp only [hb, if_false]
    rw [hf]
    rfl
  | .next (v := v) (bs := bs) (c := c') hv hs =>
    obtain ⟨f1, h1⟩ := decode_lenient hv c p c' e
    obtain ⟨f2, h2⟩ := err_of_faultyElems hs c _ (drop_add e) (acc ++ [v])
    obtain ⟨b, t, hb, hne, -⟩ := lenient_head hv
    refine ⟨max f1 f2 + 1, ?_⟩
    rw [listLoop, getElem?_of_drop (b := b) (t := t ++ c') (by rw [e, hb]; rfl)]
    simp only [hne, if_false]
    rw [decodeF_mono (Nat.le_max_left f1 f2) (by rw [h1]; simp), h1]
    simp only [Res.bind_ok]
    rw [listLoop_mono (Nat.le_max_right f1 f2) (by rw [h2]; simp), h2, faultError_after]
theorem err_of_faultyEntries {d : Bytes} {x : InputFault} (h : FaultyEntries d x) (c : Bytes) (p : Nat) (e : c.drop p = d)
    (acc : List (Bytes × Metainfo)) : ∃ f, dictLoop f c p acc = .err (faultError p x) := by
  match h with
  | .number (ds := ds) he hb =>
    refine ⟨1, ?_⟩
    have hb' := hb
    obtain ⟨y, rest, ed, -⟩ := hb
    cases hd : d with
    | nil => rw [hd] at ed; exact absurd ed (by simp)
    | cons b t =>
      rw [hd] at he
      simp only [List.head?_cons, ne_eq, Option.some.injEq] at he
      rw [dictLoop, getElem?_of_drop (b := b) (t := t) (by rw [e, hd])]
      simp only [he, if_false]
      rw [parseString_faulty.mpr ⟨_, by rw [e]; exact hb', rfl⟩]
      rfl
  | .key (k := k) (ks := ks) (c := c') hk hu =>
    obtain ⟨b, t, hb, hdig⟩ := lenientStr_head hk
    refine ⟨1, ?_⟩
    rw [dictLoop, getElem?_of_drop (b := b) (t := t ++ c') (by rw [e, hb]; rfl)]
    simp only [(digit_ne hdig).2.2.2, if_false]
    rw [parseString_of_lenientStr hk e]
    simp [hu, faultError]
  | .inner (ks := ks) (c := c') hk hu hs =>
    obtain ⟨f, hf⟩ := err_of_faulty hs c _ (drop_add e)
    obtain ⟨b, t, hb, hdig⟩ := lenientStr_head hk
    refine ⟨f + 1, ?_⟩
    rw [dictLoop, getElem?_of_drop (b := b) (t := t ++ c') (by rw [e, hb]; rfl)]
    simp only [(digit_ne hdig).2.2.2, if_false]
    rw [parseString_of_lenientStr hk e]
    simp only [Res.bind_ok, hu, if_true]
    rw [hf, faultError_after]
    rfl
  | .next (k := k) (v := v) (ks := ks) (bs := bs) (c := c') hk hu hv hs =>
    have e0 : c.drop p = ks ++ (bs ++ c') := by simpa using e
    obtain ⟨f1, h1⟩ := decode_lenient hv c _ c' (drop_add e0)
    obtain ⟨f2, h2⟩ := err_of_faultyEntries hs c _ (drop_add (drop_add e0)) (mapInsert acc k v)
    obtain ⟨b, t, hb, hdig⟩ := lenientStr_head hk
    refine ⟨max f1 f2 + 1, ?_⟩
    rw [dictLoop, getElem?_of_drop (b := b) (t := t ++ (bs ++ c')) (by rw [e0, hb]; rfl)]
    simp only [(digit_ne hdig).2.2.2, if_false]
    rw [parseString_of_lenientStr hk e0]
    simp only [Res.bind_ok, hu, if_true]
    rw [decodeF_mono (Nat.le_max_left f1 f2) (by rw [h1]; simp), h1]
    simp only [Res.bind_ok]
    rw [dictLoop_mono (Nat.le_max_right f1 f2) (by rw [h2]; simp), h2, faultError_after, Nat.add_assoc]
  | .noValue (k := k) (ks := ks) (c := c') hk hu hn hs =>
    obtain ⟨f2, h2⟩ := err_of_faultyEntries hs c _ (drop_add e) (mapInsert acc k .nothing)
    obtain ⟨b, t, hb, hdig⟩ := lenientStr_head hk
    have hnv : noValueAt c (p + ks.length) := noValueAt_of_head (by rw [drop_add e]; exact hn)
    refine ⟨(f2 + 1) + 1, ?_⟩
    rw [dictLoop, getElem?_of_drop (b := b) (t := t ++ c') (by rw [e, hb]; rfl)]
    simp only [(digit_ne hdig).2.2.2, if_false]
    rw [parseString_of_lenientStr hk e]
    simp only [Res.bind_ok, hu, if_true]
    rw [decodeF_noValue hnv]
    simp only [Res.bind_ok]
    rw [dictLoop_mono (Nat.le_succ f2) (by rw [h2]; simp), h2, faultError_after]
end

theorem faulty_of_err (f : Nat) :
    (∀ c p e, decodeF f c p = .err e → ∃ x, Faulty (c.drop p) x ∧ e = faultError p x) ∧
    (∀ c p acc e, listLoop f c p acc = .err e → ∃ x, FaultyElems (c.drop p) x ∧ e = faultError p x) ∧
    (∀ c p acc e, dictLoop f c p acc = .err e → ∃ x, FaultyEntries (c.drop p) x ∧ e = faultError p x) := by
  induction f with
  | zero => refine ⟨?_, ?_, ?_⟩ <;> intros <;> simp_all [decodeF, listLoop, dictLoop]
  | succ f ih =>
    obtain ⟨ih1, ih2, ih3⟩ := ih
    refine ⟨?_, ?_, ?_⟩
    · intro c p e h
      rw [decodeF] at h
      cases hb : c[p]? with
      | none => simp [hb] at h
      | some b =>
        have hdr := drop_eq_of_getElem? hb
        simp only [hb] at h
        split at h
        · rename_i hbe
          subst hbe
          rw [hdr]
          obtain ⟨ds, hb, rfl⟩ := parseInteger_faulty.mp h
          exact ⟨_, .int hb, rfl⟩
        · split at h
          · rename_i hbe
            subst hbe
            rw [hdr]
            obtain ⟨x, hx, rfl⟩ := ih2 _ _ _ _ h
            exact ⟨_, .list hx, (faultError_after p 1 x).symm⟩
          · split at h
            · rename_i hbe
              subst hbe
              rw [hdr]
              obtain ⟨x, hx, rfl⟩ := ih3 _ _ _ _ h
              exact ⟨_, .dict hx, (faultError_after p 1 x).symm⟩
            · split at h
              · rename_i hr
                have hs : parseString c p = .err e := by
                  cases hs : parseString c p <;> simp_all
                obtain ⟨ds, hbad, rfl⟩ := parseString_faulty.mp hs
                rw [hdr] at hbad ⊢
                simp only [Bool.and_eq_true, decide_eq_true_eq] at hr
                exact ⟨_, .str hr.1 hr.2 hbad, rfl⟩
              · simp at h
    · intro c p acc e h
      rw [listLoop] at h
      cases hb : c[p]? with
      | none => simp [hb] at h
      | some b =>
        simp only [hb] at h
        split at h
        · simp at h
        · rename_i hbe
          cases hd : decodeF f c p with
          | ok a =>
            obtain ⟨w, p1⟩ := a
            rw [hd] at h
            simp only [Res.bind_ok] at h
            obtain ⟨h1, h2, h3⟩ := (progress f).1 _ _ _ _ hd
            by_cases e1 : p1 = p
            · subst e1
              rw [listLoop_stuck (h3 rfl).2 ⟨b, hb, hbe⟩] at h
              cases h
            · obtain ⟨bs, r1, ed, rfl, hl⟩ := (lenient_of_decode f).1 _ _ _ _ hd (by omega)
              obtain ⟨x, hx, rfl⟩ := ih2 _ _ _ _ h
              rw [drop_add ed] at hx
              rw [ed]
              exact ⟨_, .next hl hx, (faultError_after ..).symm⟩
          | err e' =>
            rw [hd] at h
            cases h
            obtain ⟨x, hx, rfl⟩ := ih1 _ _ _ hd
            exact ⟨x, .inner hx, rfl⟩
          | panic => rw [hd] at h; cases h
          | hang => rw [hd] at h; cases h
    · intro c p acc e h
      rw [dictLoop] at h
      cases hb : c[p]? with
      | none => simp [hb] at h
      | some b =>
        simp only [hb] at h
        split at h
        · simp at h
        · rename_i hbe
          cases hs : parseString c p with
          | ok a =>
            obtain ⟨k, p0⟩ := a
            rw [hs] at h
            simp only [Res.bind_ok] at h
            obtain ⟨ks, r0, ek, rfl, hk⟩ := lenientStr_of_parseString hs
            split at h
            · rename_i hu
              cases hd : decodeF f c (p + ks.length) with
              | ok a =>
                obtain ⟨w, p1⟩ := a
                rw [hd] at h
                simp only [Res.bind_ok] at h
                obtain ⟨h1, h2, h3⟩ := (progress f).1 _ _ _ _ hd
                by_cases e1 : p1 = p + ks.length
                · obtain ⟨rfl, hnv⟩ := h3 e1
                  subst e1
                  obtain ⟨x, hx, rfl⟩ := ih3 _ _ _ _ h
                  have hh := head_of_noValueAt hnv
                  rw [drop_add ek] at hx hh
                  rw [ek]
                  exact ⟨_, .noValue hk hu hh hx, (faultError_after ..).symm⟩
                · obtain ⟨bs, r1, ed, rfl, hl⟩ := (lenient_of_decode f).1 _ _ _ _ hd (by omega)
                  obtain ⟨x, hx, rfl⟩ := ih3 _ _ _ _ h
                  rw [drop_add ed] at hx
                  rw [drop_add ek] at ed
                  rw [ek, ed, ← List.append_assoc]
                  exact ⟨_, .next hk hu hl hx, by rw [faultError_after, Nat.add_assoc]⟩
              | panic => rw [hd] at h; cases h
              | hang => rw [hd] at h; cases h
              | err e' =>
                rw [hd] at h
                cases h
                obtain ⟨x, hx, rfl⟩ := ih1 _ _ _ hd
                rw [drop_add ek] at hx
                rw [ek]
                exact ⟨_, .inner hk hu hx, (faultError_after ..).symm⟩
            · rename_i hu
              simp only [Res.err.injEq] at h
              subst h
              rw [ek]
              exact ⟨_, .key hk (by simpa using hu), rfl⟩
          | err e' =>
            rw [hs] at h
            cases h
            obtain ⟨ds, hbad, rfl⟩ := parseString_faulty.mp hs
            exact ⟨_, .number (by rw [List.head?_drop, hb]; simpa using hbe) hbad, rfl⟩
          | panic => rw [hs] at h; cases h
          | hang => rw [hs] at h; cases h

end RustBit
