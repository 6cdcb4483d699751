/-
Several actors at one cache file.
-/
import Verif.Model.Race
import Verif.Props.JsonCache

namespace RustBit
open Spec Json

/-! ### No document has a zero byte -/

theorem space_no_zero {w : Bytes} (h : IsSpace w) : (0 : UInt8) ∉ w := by
  intro h0; have := h 0 h0; revert this; decide

theorem digits_no_zero {ds : Bytes} (h : IsDigits ds) : (0 : UInt8) ∉ ds := by
  intro h0
  have h1 := (h.2 0 h0).1
  have h2 : (0 : UInt8).toNat = 0 := rfl
  omega

theorem hex_no_zero {n : Nat} {c : UInt8} (h : IsHex n c) : (0 : UInt8) ≠ c := by
  rintro rfl
  have h2 : (0 : UInt8).toNat = 0 := rfl
  unfold IsHex at h
  omega

theorem shortEscapes_no_zero {e c : UInt8} (h : (e, c) ∈ shortEscapes) : (0 : UInt8) ≠ e := by
  rintro rfl
  simp [shortEscapes] at h

theorem chars_no_zero {us : List Json.StrUnit} {bs : Bytes} (h : IsChars us bs) : (0 : UInt8) ∉ bs := by
  induction h with
  | nil => simp
  | raw h1 _ _ _ ih =>
    simp only [List.mem_cons, not_or]
    refine ⟨?_, ih⟩
    rintro rfl
    have h2 : (0 : UInt8).toNat = 0 := rfl
    omega
  | short h _ ih =>
    simp only [List.mem_cons, not_or]
    exact ⟨by decide, shortEscapes_no_zero h, ih⟩
  | hex h1 h2 h3 h4 _ ih =>
    simp only [List.mem_cons, not_or]
    exact ⟨by decide, by decide, hex_no_zero h1, hex_no_zero h2, hex_no_zero h3, hex_no_zero h4, ih⟩

theorem string_no_zero {s : Option Bytes} {bs : Bytes} (h : IsString s bs) : (0 : UInt8) ∉ bs := by
  cases h with
  | text h _ => simpa using chars_no_zero h
  | lone h _ => simpa using chars_no_zero h

theorem number_no_zero {n : Option Nat} {bs : Bytes} (h : IsNumber n bs) : (0 : UInt8) ∉ bs := by
  cases h with
  | int h _ => exact digits_no_zero (isDigits_of_decimal h).1
  | other hm hd hf he _ =>
    simp only [List.mem_append, not_or]
    refine ⟨⟨⟨?_, digits_no_zero (isDigits_of_decimal hd).1⟩, ?_⟩, ?_⟩
    · rcases hm with rfl | rfl <;> simp
    · rcases hf with rfl | ⟨ds, h, rfl⟩
      · simp
      · simpa using digits_no_zero h
    · rcases he with rfl | ⟨e, sign, ds, he, hs, h, rfl⟩
      · simp
      · have := digits_no_zero h
        rcases he with rfl | rfl <;> rcases hs with rfl | rfl | rfl <;> simpa using this

mutual
theorem json_no_zero : ∀ {v : Json} {bs : Bytes}, IsJson v bs → (0 : UInt8) ∉ bs
  | _, _, .null => by decide
  | _, _, .true => by decide
  | _, _, .false => by decide
  | _, _, .num h => number_no_zero h
  | _, _, .str h => string_no_zero h
  | _, _, .empty h => by have := space_no_zero h; simpa using this
  | _, _, .arr h => by have := elems_no_zero h; simpa using this
  | _, _, .none h => by have := space_no_zero h; simpa using this
  | _, _, .obj h => by have := members_no_zero h; simpa using this
theorem elems_no_zero : ∀ {l : List Json} {bs : Bytes}, JElems l bs → (0 : UInt8) ∉ bs
  | _, _, .one h1 h2 h3 => by
    have h1 := space_no_zero h1; have h2 := json_no_zero h2; have h3 := space_no_zero h3
    simp [h1, h2, h3]
  | _, _, .cons h1 h2 h3 h4 => by
    have h1 := space_no_zero h1; have h2 := json_no_zero h2; have h3 := space_no_zero h3; have h4 := elems_no_zero h4
    simp [h1, h2, h3, h4]
theorem members_no_zero : ∀ {m : List (Option Bytes × Json)} {bs : Bytes}, JMembers m bs → (0 : UInt8) ∉ bs
  | _, _, .one h1 h2 h3 h4 h5 h6 => by
    have h1 := space_no_zero h1; have h2 := string_no_zero h2; have h3 := space_no_zero h3; have h4 := space_no_zero h4
    have h5 := json_no_zero h5; have h6 := space_no_zero h6
    simp [h1, h2, h3, h4, h5, h6]
  | _, _, .cons h1 h2 h3 h4 h5 h6 h7 => by
    have h1 := space_no_zero h1; have h2 := string_no_zero h2; have h3 := space_no_zero h3; have h4 := space_no_zero h4
    have h5 := json_no_zero h5; have h6 := space_no_zero h6; have h7 := members_no_zero h7
    simp [h1, h2, h3, h4, h5, h6, h7]
end

theorem stored_no_zero {i : Info} {s : Bytes} (h : Stored i s) : (0 : UInt8) ∉ s := by
  obtain ⟨v, ⟨w, bs, w', h1, h2, h3, rfl⟩, -⟩ := h
  simp [space_no_zero h1, json_no_zero h2, space_no_zero h3]

/-! ### The content of the file -/

/-- What is there is the document, except for gaps and for the end. -/
def Near (J c : Bytes) : Prop := c.length ≤ J.length ∧ ∀ (x : Nat) (b : UInt8), c[x]? = some b → J[x]? = some b ∨ b = 0

/-- What is read while a document is being written is the whole of it or nothing. -/
theorem near_fromJson {i : Info} (hi : Typed i) {c : Bytes} {j : Info} (h : Near i.json c) (hj : Info.fromJson c = some j) : j = i ∧ c = i.json := by
  have h0 := stored_no_zero ((C92_exact c j).mp hj)
  have hc : c = i.json.take c.length := by
    apply List.ext_getElem?
    intro x
    rw [List.getElem?_take]
    by_cases hx : x < c.length
    · rw [if_pos hx, List.getElem?_eq_getElem hx]
      rcases h.2 x _ (List.getElem?_eq_getElem hx) with h1 | h1
      · exact h1.symm
      · exact absurd (h1 ▸ List.getElem_mem hx) h0
    · rw [if_neg hx, List.getElem?_eq_none (by omega)]
  by_cases hl : c.length < i.json.length
  · rw [hc, Info.fromJson_cut (typed_sized hi) hl] at hj
    cases hj
  · rw [List.take_of_length_le (by omega)] at hc
    rw [hc, Info.fromJson_json (typed_sized hi)] at hj
    exact ⟨(Option.some.inj hj).symm, hc⟩

theorem drop_take_get (J : Bytes) (p n x : Nat) (hx : x < n) : ((J.drop p).take n)[x]? = J[p + x]? := by
  rw [List.getElem?_take, if_pos hx, List.getElem?_drop]

/-- Zeros fill the gap. -/
theorem pwrite_gap (c : Bytes) (s : Nat) (b : Bytes) (x : Nat) (hb : b ≠ []) (h1 : c.length ≤ x) (h2 : x < s) : (pwrite c s b)[x]? = some 0 := by
  rw [pwrite, if_neg hb, List.append_assoc, List.append_assoc, List.getElem?_append_right (by simp; omega),
    List.getElem?_append_left (by simp; omega), List.getElem?_replicate, if_pos (by simp; omega)]

theorem near_pwrite {J c : Bytes} {p n : Nat} (h : Near J c) (hp : p + n ≤ J.length) : Near J (pwrite c p ((J.drop p).take n)) := by
  have hl : ((J.drop p).take n).length = n := by simp; omega
  refine ⟨pwrite_length_le _ _ _ _ h.1 (by omega), ?_⟩
  intro x b hx
  by_cases hb : (J.drop p).take n = []
  · rw [pwrite, if_pos hb] at hx
    exact h.2 x b hx
  · by_cases h1 : p ≤ x ∧ x < p + n
    · rw [pwrite_inside _ _ _ _ h1.1 (by omega), drop_take_get _ _ _ _ (by omega), show p + (x - p) = x by omega] at hx
      exact .inl hx
    · by_cases h2 : x < c.length
      · rw [pwrite_outside _ _ _ _ h2 (by omega)] at hx
        exact h.2 x b hx
      · have hlt : x < (pwrite c p ((J.drop p).take n)).length := (List.getElem?_eq_some_iff.mp hx).1
        rw [pwrite_length _ _ _ hb] at hlt
        rw [pwrite_gap _ _ _ _ hb (by omega) (by omega)] at hx
        exact .inr (Option.some.inj hx).symm

/-- What is right in front stays right, whoever writes. -/
theorem front_pwrite {J c : Bytes} {p n q : Nat} (hp : p + n ≤ J.length) (hq : ∀ x, x < q → c[x]? = J[x]?) (hqJ : q ≤ J.length) :
    ∀ x, x < q → (pwrite c p ((J.drop p).take n))[x]? = J[x]? := by
  intro x hx
  have hl : ((J.drop p).take n).length = n := by simp; omega
  by_cases h1 : p ≤ x ∧ x < p + n
  · rw [pwrite_inside _ _ _ _ h1.1 (by omega), drop_take_get _ _ _ _ (by omega), show p + (x - p) = x by omega]
  · have h2 : x < c.length := by
      have := hq x hx
      rw [List.getElem?_eq_getElem (l := J) (by omega)] at this
      exact (List.getElem?_eq_some_iff.mp this).1
    rw [pwrite_outside _ _ _ _ h2 (by omega), hq x hx]

/-- The writer in front gets further. -/
theorem own_pwrite {J c : Bytes} {p n : Nat} (hp : p + n ≤ J.length) (hq : ∀ x, x < p → c[x]? = J[x]?) :
    ∀ x, x < p + n → (pwrite c p ((J.drop p).take n))[x]? = J[x]? := by
  intro x hx
  by_cases h : x < p
  · exact front_pwrite hp hq (by omega) x h
  · have hl : ((J.drop p).take n).length = n := by simp; omega
    rw [pwrite_inside _ _ _ _ (by omega) (by omega), drop_take_get _ _ _ _ (by omega), show p + (x - p) = x by omega]

theorem near_full {J c : Bytes} (h : Near J c) (hq : ∀ x, x < J.length → c[x]? = J[x]?) : c = J := by
  apply List.ext_getElem?
  intro x
  by_cases hx : x < J.length
  · exact hq x hx
  · rw [List.getElem?_eq_none (by have := h.1; omega), List.getElem?_eq_none (by omega)]

/-! ### The file -/

theorem cacheLoc_eq (cwd : Loc) (h : Bytes) : cacheLoc cwd h = cwd ++ [b!"downloads"] ++ [percentEncode h] := by
  simp [cacheLoc]

theorem cacheLoc_ne_dir (cwd : Loc) (h : Bytes) : cwd ++ [b!"downloads"] ≠ cacheLoc cwd h := by
  rw [cacheLoc_eq]
  intro e
  have := congrArg List.length e
  simp at this

theorem openCreate_cache {fs : FS} {cwd : Loc} {infoHash : Bytes} (hh : 2 < infoHash.length) (hd : fs (cwd ++ [b!"downloads"]) = some .dir) :
    fs.openCreate cwd (PathBuf.parse (cachePath infoHash)) = match fs (cacheLoc cwd infoHash) with
      | some .dir => .err .other
      | some (.file _) => .ok (cacheLoc cwd infoHash, fs)
      | none => .ok (cacheLoc cwd infoHash, fs.set (cacheLoc cwd infoHash) (.file [])) := by
  have hsafe := C62_safe infoHash
  obtain ⟨n1, n2, n3⟩ := hsafe.2.2.2 hh
  have hp := cachePath_parse (hsafe.2.1 _ (by decide)) n1 n2
  have hn : hasNul [b!"downloads", percentEncode infoHash] = false := by
    have : (0 : UInt8) ∉ percentEncode infoHash := hsafe.2.2.1
    simp [hasNul, this]
  unfold FS.openCreate
  simp only [hp, hn, Bool.or_self, Bool.false_eq_true, if_false, List.getLast?_cons_cons, List.getLast?_singleton, List.dropLast_cons_cons,
    List.dropLast_singleton, FS.walk, PathBuf.base]
  rw [if_neg (by decide), hd]
  simp only [Res.bind_ok, if_neg n3, cacheLoc_eq]
  cases fs (cwd ++ [b!"downloads"] ++ [percentEncode infoHash]) with
  | none => rfl
  | some x => cases x <;> rfl

theorem writeAt_elsewhere {fs : FS} {l l' : Loc} {s : Nat} {b : Bytes} (h : l' ≠ l) : fs.writeAt l s b l' = fs l' := by
  unfold FS.writeAt
  cases fs l with
  | none => rfl
  | some x => cases x with
    | dir => rfl
    | file c => simp [FS.set, h]

theorem writeAt_file {fs : FS} {l : Loc} {c : Bytes} (s : Nat) (b : Bytes) (h : fs l = some (.file c)) :
    fs.writeAt l s b = fs.set l (.file (pwrite c s b)) := by
  unfold FS.writeAt
  rw [h]

/-- What an actor may be up to if all metadata is `i`. -/
def Agrees (cwd : Loc) (infoHash : Bytes) (i : Info) : Collector → Prop
  | .got j => j = i
  | .saving j l p => j = i ∧ l = cacheLoc cwd infoHash ∧ p ≤ i.json.length
  | .done j => j = i
  | .gaveUp j => j = i
  | _ => True

/-- The invariant of actors that are served the same metadata. -/
structure Together (cwd : Loc) (infoHash : Bytes) (i : Info) (R : Race) : Prop where
  dir : R.fs (cwd ++ [b!"downloads"]) = some .dir
  file : R.fs (cacheLoc cwd infoHash) = none ∨ ∃ c, R.fs (cacheLoc cwd infoHash) = some (.file c) ∧ Near i.json c
  actors : ∀ (k : Nat) (a : Collector), R.actors[k]? = some a → Agrees cwd infoHash i a
  owner : R.fs (cacheLoc cwd infoHash) = none ∨ R.fs (cacheLoc cwd infoHash) = some (.file i.json) ∨
    (∃ (k p : Nat) (c : Bytes), R.actors[k]? = some (.saving i (cacheLoc cwd infoHash) p) ∧ R.fs (cacheLoc cwd infoHash) = some (.file c) ∧
      ∀ (x : Nat), x < p → c[x]? = i.json[x]?) ∨
    ∃ (k : Nat), R.actors[k]? = some (.gaveUp i)

theorem fromFile_near {cwd : Loc} {infoHash : Bytes} {i : Info} (hh : 2 < infoHash.length) (hi : Typed i) {fs : FS}
    (hd : fs (cwd ++ [b!"downloads"]) = some .dir)
    (hf : fs (cacheLoc cwd infoHash) = none ∨ ∃ c, fs (cacheLoc cwd infoHash) = some (.file c) ∧ Near i.json c) {j : Info}
    (h : Info.fromFile cwd fs (cachePath infoHash) = .ok j) : j = i := by
  unfold Info.fromFile at h
  rw [readToString_cache hh hd, readFile] at h
  rcases hf with hf | ⟨c, hf, hn⟩
  · rw [hf] at h; cases h
  · rw [hf] at h
    simp only [Option.bind_some] at h
    split at h
    · cases h
    · rename_i s hs
      split at hs
      · cases hs
        split at h
        · rename_i k hk
          cases h
          exact (near_fromJson hi hn hk).1
        · cases h
      · cases hs

theorem set_other {l : List Collector} {k q : Nat} {a : Collector} (h : q ≠ k) : (l.set k a)[q]? = l[q]? := by
  rw [List.getElem?_set_ne (Ne.symm h)]

theorem set_mine {l : List Collector} {k : Nat} {a b : Collector} (h : l[k]? = some b) : (l.set k a)[k]? = some a := by
  rw [List.getElem?_set_self (List.getElem?_eq_some_iff.mp h).1]

theorem agrees_set {cwd : Loc} {infoHash : Bytes} {i : Info} {l : List Collector} {k : Nat} {b : Collector}
    (h : ∀ (q : Nat) (a : Collector), l[q]? = some a → Agrees cwd infoHash i a) (hb : Agrees cwd infoHash i b) :
    ∀ (q : Nat) (a : Collector), (l.set k b)[q]? = some a → Agrees cwd infoHash i a := by
  intro q a ha
  by_cases hq : q = k
  · subst hq
    rw [List.getElem?_set] at ha
    split at ha
    · split at ha
      · cases ha; exact hb
      · cases ha
    · exact h _ _ ha
  · rw [set_other hq] at ha
    exact h q a ha

/-- The step of an actor that is neither writing nor done with it leaves the owner alone. -/
theorem owner_keep {cwd : Loc} {infoHash : Bytes} {i : Info} {R : Race} (h : Together cwd infoHash i R) {k : Nat} {a b : Collector}
    (ha : R.actors[k]? = some a) (h1 : ∀ j l p, a ≠ .saving j l p) (h2 : ∀ j, a ≠ .gaveUp j) (hb : Agrees cwd infoHash i b) :
    Together cwd infoHash i { R with actors := R.actors.set k b } := by
  refine ⟨h.dir, h.file, agrees_set h.actors hb, ?_⟩
  rcases h.owner with h0 | h0 | ⟨q, p, c, hq, hc, hx⟩ | ⟨q, hq⟩
  · exact .inl h0
  · exact .inr (.inl h0)
  · refine .inr (.inr (.inl ⟨q, p, c, ?_, hc, hx⟩))
    rw [set_other (by rintro rfl; rw [hq] at ha; exact h1 _ _ _ (Option.some.inj ha).symm)]
    exact hq
  · refine .inr (.inr (.inr ⟨q, ?_⟩))
    rw [set_other (by rintro rfl; rw [hq] at ha; exact h2 _ (Option.some.inj ha).symm)]
    exact hq

theorem near_nil (J : Bytes) : Near J [] := ⟨by simp, by simp⟩

theorem near_refl (J : Bytes) : Near J J := ⟨Nat.le_refl _, fun _ _ h => .inl h⟩

theorem together_step {cwd : Loc} {infoHash : Bytes} {i : Info} (hh : 2 < infoHash.length) (hi : Typed i) {R S : Race}
    (h : Together cwd infoHash i R) (hs : RStep cwd (cachePath infoHash) (· = i) R S) : Together cwd infoHash i S := by
  cases hs with
  | look k hk =>
    refine owner_keep h hk (by simp) (by simp) ?_
    cases hf : Info.fromFile cwd R.fs (cachePath infoHash) with
    | ok j => exact fromFile_near hh hi h.dir h.file hf
    | err e => trivial
    | panic => trivial
    | hang => trivial
  | refused k hk => exact owner_keep h hk (by simp) (by simp) trivial
  | served k j hk hj => exact owner_keep h hk (by simp) (by simp) hj
  | createFails k j hk ho => exact owner_keep h hk (by simp) (by simp) trivial
  | create k j l fs hk ho =>
    have hj : j = i := h.actors _ _ hk
    subst hj
    rw [openCreate_cache hh h.dir] at ho
    have hl : l = cacheLoc cwd infoHash ∧ fs (cwd ++ [b!"downloads"]) = some .dir := by
      split at ho
      · cases ho
      · cases ho; exact ⟨rfl, h.dir⟩
      · cases ho; exact ⟨rfl, by rw [FS.set, if_neg (cacheLoc_ne_dir cwd infoHash)]; exact h.dir⟩
    obtain ⟨rfl, hd⟩ := hl
    have hc : (fs.set (cacheLoc cwd infoHash) (.file [])) (cacheLoc cwd infoHash) = some (.file []) := by simp [FS.set]
    refine ⟨?_, .inr ⟨[], hc, near_nil _⟩, agrees_set h.actors ⟨rfl, rfl, by omega⟩, .inr (.inr (.inl ⟨k, 0, [], set_mine hk, hc, by omega⟩))⟩
    show (fs.set (cacheLoc cwd infoHash) (.file [])) _ = _
    rw [FS.set, if_neg (cacheLoc_ne_dir cwd infoHash)]
    exact hd
  | write k n j l p hk hn =>
    obtain ⟨rfl, rfl, hp⟩ := h.actors _ _ hk
    have ha : Agrees cwd infoHash j (.saving j (cacheLoc cwd infoHash) (p + n)) := ⟨rfl, rfl, hn⟩
    have hd : (R.fs.writeAt (cacheLoc cwd infoHash) p ((j.json.drop p).take n)) (cwd ++ [b!"downloads"]) = some .dir := by
      rw [writeAt_elsewhere (cacheLoc_ne_dir cwd infoHash)]; exact h.dir
    rcases h.file with h0 | ⟨c, h0, hc⟩
    · have hw : R.fs.writeAt (cacheLoc cwd infoHash) p ((j.json.drop p).take n) = R.fs := by
        unfold FS.writeAt; rw [h0]
      refine ⟨hd, .inl (by rw [hw]; exact h0), agrees_set h.actors ha, .inl (by rw [hw]; exact h0)⟩
    · have hw := writeAt_file p ((j.json.drop p).take n) h0
      have hf : (R.fs.writeAt (cacheLoc cwd infoHash) p ((j.json.drop p).take n)) (cacheLoc cwd infoHash) =
          some (.file (pwrite c p ((j.json.drop p).take n))) := by rw [hw]; simp [FS.set]
      refine ⟨hd, .inr ⟨_, hf, near_pwrite hc hn⟩, agrees_set h.actors ha, ?_⟩
      rcases h.owner with h1 | h1 | ⟨q, s, c', hq, hc', hx⟩ | ⟨q, hq⟩
      · rw [h0] at h1; cases h1
      · rw [h0] at h1
        cases h1
        refine .inr (.inl ?_)
        exact hf.trans (by rw [near_full (near_pwrite hc hn) (front_pwrite hn (fun _ _ => rfl) (Nat.le_refl _))])
      · rw [h0] at hc'
        cases hc'
        by_cases hqk : q = k
        · subst hqk
          rw [hk] at hq
          cases hq
          exact .inr (.inr (.inl ⟨q, p + n, _, set_mine hk, hf, own_pwrite hn hx⟩))
        · refine .inr (.inr (.inl ⟨q, s, _, by rw [set_other hqk]; exact hq, hf, ?_⟩))
          obtain ⟨-, -, hs⟩ := h.actors _ _ hq
          exact front_pwrite hn hx hs
      · refine .inr (.inr (.inr ⟨q, ?_⟩))
        rw [set_other (by rintro rfl; rw [hk] at hq; cases hq)]
        exact hq
  | finish k j l hk =>
    obtain ⟨rfl, rfl, hp⟩ := h.actors _ _ hk
    refine ⟨h.dir, h.file, agrees_set h.actors rfl, ?_⟩
    rcases h.owner with h1 | h1 | ⟨q, s, c, hq, hc, hx⟩ | ⟨q, hq⟩
    · exact .inl h1
    · exact .inr (.inl h1)
    · by_cases hqk : q = k
      · subst hqk
        rw [hk] at hq
        cases hq
        refine .inr (.inl ?_)
        rcases h.file with h0 | ⟨c', h0, hc'⟩
        · rw [h0] at hc; cases hc
        · rw [h0] at hc
          cases hc
          rw [← near_full hc' hx]
          exact h0
      · exact .inr (.inr (.inl ⟨q, s, c, by rw [set_other hqk]; exact hq, hc, hx⟩))
    · refine .inr (.inr (.inr ⟨q, ?_⟩))
      rw [set_other (by rintro rfl; rw [hk] at hq; cases hq)]
      exact hq
  | fails k j l p hk =>
    obtain ⟨rfl, rfl, hp⟩ := h.actors _ _ hk
    exact ⟨h.dir, h.file, agrees_set h.actors rfl, .inr (.inr (.inr ⟨k, set_mine hk⟩))⟩

theorem together_steps {cwd : Loc} {infoHash : Bytes} {i : Info} (hh : 2 < infoHash.length) (hi : Typed i) {R S : Race}
    (h : Together cwd infoHash i R) (hs : RSteps cwd (cachePath infoHash) (· = i) R S) : Together cwd infoHash i S := by
  induction hs with
  | refl => exact h
  | tail _ hs ih => exact together_step hh hi (ih) hs

/-! ### An absent file has not been saved -/

/-- Actors that know a file has been there. -/
def Collector.saved : Collector → Prop
  | .saving .. => True
  | .done _ => True
  | .gaveUp _ => True
  | _ => False

def Unsaved (cwd : Loc) (infoHash : Bytes) (R : Race) : Prop :=
  R.fs (cacheLoc cwd infoHash) = none → ∀ (k : Nat) (a : Collector), R.actors[k]? = some a → ¬ a.saved

theorem unsaved_set {l : List Collector} {k : Nat} {b : Collector} (h : ∀ (q : Nat) (a : Collector), l[q]? = some a → ¬ a.saved)
    (hb : ¬ b.saved) : ∀ (q : Nat) (a : Collector), (l.set k b)[q]? = some a → ¬ a.saved := by
  intro q a ha
  by_cases hq : q = k
  · subst hq
    rw [List.getElem?_set] at ha
    split at ha
    · split at ha
      · cases ha; exact hb
      · cases ha
    · exact h _ _ ha
  · rw [set_other hq] at ha
    exact h q a ha

theorem unsaved_step {cwd : Loc} {infoHash : Bytes} {i : Info} (hh : 2 < infoHash.length) {R S : Race}
    (h : Together cwd infoHash i R) (hu : Unsaved cwd infoHash R) (hs : RStep cwd (cachePath infoHash) (· = i) R S) : Unsaved cwd infoHash S := by
  cases hs with
  | look k hk =>
    intro hn
    refine unsaved_set (hu hn) ?_
    rw [Info.fromFile, readToString_cache hh h.dir, readFile, hn]
    exact id
  | refused k hk => exact fun hn => unsaved_set (hu hn) id
  | served k j hk hj => exact fun hn => unsaved_set (hu hn) id
  | createFails k j hk ho => exact fun hn => unsaved_set (hu hn) id
  | create k j l fs hk ho =>
    intro hn
    rw [openCreate_cache hh h.dir] at ho
    have hl : l = cacheLoc cwd infoHash := by split at ho <;> cases ho <;> rfl
    subst hl
    simp [FS.set] at hn
  | write k n j l p hk hn =>
    intro h0
    obtain ⟨rfl, rfl, hp⟩ := h.actors _ _ hk
    rcases h.file with h1 | ⟨c, h1, hc⟩
    · exact absurd trivial (hu h1 _ _ hk)
    · rw [writeAt_file _ _ h1] at h0
      simp [FS.set] at h0
  | finish k j l hk => exact fun h0 => absurd trivial (hu h0 _ _ hk)
  | fails k j l p hk => exact fun h0 => absurd trivial (hu h0 _ _ hk)

theorem unsaved_steps {cwd : Loc} {infoHash : Bytes} {i : Info} (hh : 2 < infoHash.length) (hi : Typed i) {R S : Race}
    (h : Together cwd infoHash i R) (hu : Unsaved cwd infoHash R) (hs : RSteps cwd (cachePath infoHash) (· = i) R S) : Unsaved cwd infoHash S := by
  induction hs with
  | refl => exact hu
  | tail hs h1 ih => exact unsaved_step hh (together_steps hh hi h hs) ih h1

/-! ### Documents with something behind them -/

theorem printMembers_last : ∀ (m : List (Option Bytes × Json)), ∃ t, printMembers m = t ++ [125]
  | [] => ⟨[], rfl⟩
  | [(k, v)] => ⟨printStr (k.getD []) ++ 58 :: v.print, by rw [printMembers]⟩
  | (k, v) :: x :: t => by
    obtain ⟨s, hs⟩ := printMembers_last (x :: t)
    refine ⟨printStr (k.getD []) ++ 58 :: v.print ++ 44 :: s, ?_⟩
    rw [printMembers, hs]
    · simp
    · simp

theorem Info.json_last (i : Info) : ∃ t, i.json = t ++ [125] := by
  rw [Info.json, Info.toJson, Json.print]
  obtain ⟨t, ht⟩ := printMembers_last [(some b!"files", optTo (fun fs => .arr (fs.map File.toJson)) i.files),
    (some b!"length", optTo (fun n => .num (some n)) i.length),
    (some b!"name", .str (some i.name)),
    (some b!"piece_length", .num (some i.pieceLength)),
    (some b!"pieces", .arr (i.pieces.map fun b => .num (some b.toNat)))]
  exact ⟨123 :: t, by rw [ht]; rfl⟩

theorem skipWs_brace : ∀ (t : Bytes), skipWs (t ++ [125]) ≠ []
  | [] => by decide
  | b :: t => by
    have := skipWs_brace t
    rw [skipWs] at this
    rw [skipWs, List.cons_append, List.dropWhile_cons]
    split
    · exact this
    · simp

/-- Two documents in a row, the first complete, are none. -/
theorem Info.fromJson_more {i : Info} (h : i.Sized) (t : Bytes) : Info.fromJson (i.json ++ (t ++ [125])) = none := by
  have hc := Info.canon h
  have hno : i.toJson.isNum = false := rfl
  obtain ⟨f0, h0⟩ := pVal_print i.toJson hc (t ++ [125]) (by rw [hno]; simp)
  have h1 := pVal_fuel (i.json ++ (t ++ [125])) (2 * (i.json ++ (t ++ [125])).length + 2 + f0) (by omega)
  have h2 : skipWs (i.json ++ (t ++ [125])) = i.json ++ (t ++ [125]) := skipWs_print i.toJson (t ++ [125])
  rw [h2] at h1
  have h3 : pVal (2 * (i.json ++ (t ++ [125])).length + 2) (i.json ++ (t ++ [125])) = some (i.toJson, t ++ [125]) := by
    rw [← h1]; exact h0 _ (by omega)
  rw [Info.fromJson, Json.parse, h2, h3]
  have h4 := skipWs_brace t
  simp only [if_neg h4]
  rfl

end RustBit
