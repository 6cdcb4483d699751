/- Encodings of values of one type are prefix-free, whatever the text. -/
import Verif.Proofs.EncodeExact

namespace RustBit
open Spec

theorem valid_append (a b : Bytes) (h : validUtf8 a = true) : validUtf8 (a ++ b) = validUtf8 b := by
  obtain ⟨cs, hs, rfl⟩ := text_of_valid a h
  clear h
  induction cs with
  | nil => rfl
  | cons n t ih =>
    rw [List.flatMap_cons, List.append_assoc, validUtf8_utf8 n (hs n (by simp))]
    exact ih (fun k hk => hs k (by simp [hk]))

theorem valid_no_chars (t : Bytes) (h : validUtf8 t = true) (h0 : charCount t = 0) : t = [] := by
  obtain ⟨cs, ht⟩ := text_of_valid t h
  rw [charCount_text ht] at h0
  rw [List.length_eq_zero_iff.mp h0] at ht
  exact ht.2

/-- Two texts of equally many characters at the beginning of the same bytes are equal. -/
theorem text_prefix {s s' r r' : Bytes} (h : validUtf8 s = true) (h' : validUtf8 s' = true) (hc : charCount s = charCount s')
    (e : s ++ r = s' ++ r') : s = s' ∧ r = r' := by
  have key : ∀ {s s' t : Bytes}, validUtf8 s = true → validUtf8 s' = true → charCount s = charCount s' → s' = s ++ t → t = [] := by
    intro s s' t h h' hc e
    subst e
    rw [valid_append _ _ h] at h'
    rw [charCount_append] at hc
    exact valid_no_chars t h' (by omega)
  rcases Nat.le_total s.length s'.length with hl | hl
  · have e1 : s' = s ++ s'.drop s.length := by
      have := congrArg (List.take s'.length) e
      rw [List.take_left' rfl, List.take_append] at this
      rw [List.take_of_length_le hl] at this
      have h2 := congrArg (List.drop s.length) this
      rw [List.drop_left' rfl] at h2
      rw [← h2, this]
    have := key h h' hc e1
    rw [this, List.append_nil] at e1
    subst e1
    exact ⟨rfl, List.append_cancel_left e⟩
  · have e1 : s = s' ++ s.drop s'.length := by
      have := congrArg (List.take s.length) e.symm
      rw [List.take_left' rfl, List.take_append] at this
      rw [List.take_of_length_le hl] at this
      have h2 := congrArg (List.drop s'.length) this
      rw [List.drop_left' rfl] at h2
      rw [← h2, this]
    have := key h' h hc.symm e1
    rw [this, List.append_nil] at e1
    subst e1
    exact ⟨rfl, List.append_cancel_left e⟩

theorem decimal_prefix {a b : Nat} {x y : UInt8} {r r' : Bytes} (hx : isDigit x = false) (hy : isDigit y = false)
    (e : decimal a ++ x :: r = decimal b ++ y :: r') : a = b ∧ r = r' := by
  obtain ⟨h1, -, h2⟩ := digits_prefix (isDigit_of_isDecimal (isDecimal_decimal a)) (isDigit_of_isDecimal (isDecimal_decimal b)) hx hy e
  exact ⟨decimal_inj h1, h2⟩

theorem encStr_prefix {s s' r r' : Bytes} (h : validUtf8 s = true) (h' : validUtf8 s' = true) (e : encStr s ++ r = encStr s' ++ r') :
    s = s' ∧ r = r' := by
  simp only [encStr, List.append_assoc, List.cons_append] at e
  obtain ⟨hc, e2⟩ := decimal_prefix (by decide) (by decide) e
  exact text_prefix h h' hc e2

theorem encBytes_prefix {s s' r r' : Bytes} (e : encBytes s ++ r = encBytes s' ++ r') : s = s' ∧ r = r' := by
  simp only [encBytes, List.append_assoc, List.cons_append] at e
  obtain ⟨hc, e2⟩ := decimal_prefix (by decide) (by decide) e
  exact List.append_inj e2 hc

theorem encUsize_prefix {a b : Nat} {r r' : Bytes} (e : encUsize a ++ r = encUsize b ++ r') : a = b ∧ r = r' := by
  simp only [encUsize, List.append_assoc, List.cons_append, List.cons.injEq, true_and, List.nil_append] at e
  exact decimal_prefix (by decide) (by decide) e

/-- The first byte of an encoding is never `e`. -/
def Begins (bs : Bytes) : Prop := ∃ b t, bs = b :: t ∧ b ≠ 101

theorem digits_begin (n : Nat) (t : Bytes) : Begins (decimal n ++ t) := by
  have hd := isDecimal_decimal n
  cases hdec : decimal n with
  | nil => exact absurd hdec hd.nonempty
  | cons b u =>
    refine ⟨b, u ++ t, rfl, fun e => ?_⟩
    have := hd.digits b (by rw [hdec]; simp)
    rw [e] at this
    revert this; decide

theorem encStr_begins (s : Bytes) : Begins (encStr s) := digits_begin _ _

theorem encode_begins (x : EVal) (h : absent x = false) : Begins x.encode := by
  match x with
  | .str s => exact encStr_begins s
  | .usize n => exact ⟨_, _, rfl, by decide⟩
  | .bytes b => exact digits_begin _ _
  | .vec l => exact ⟨_, _, rfl, by decide⟩
  | .map m => exact ⟨_, _, rfl, by decide⟩
  | .opt none => cases h
  | .opt (some v) => rw [EVal.encode]; exact encode_begins v h

/-- Sequences of prefix-free items that do not begin with `e`, ended by `e`. -/
theorem seq_prefix {α β : Type} (f : α → Bytes) (g : α → β) :
    ∀ (l l' : List α) (r r' : Bytes), (∀ x ∈ l, Begins (f x)) → (∀ x ∈ l', Begins (f x)) →
      (∀ x ∈ l, ∀ y ∈ l', ∀ r r', f x ++ r = f y ++ r' → g x = g y ∧ r = r') →
      (l.map f).flatten ++ 101 :: r = (l'.map f).flatten ++ 101 :: r' → l.map g = l'.map g ∧ r = r'
  | [], [], r, r', _, _, _, e => by
    simp only [List.map_nil, List.flatten_nil, List.nil_append, List.cons.injEq, true_and] at e
    exact ⟨rfl, e⟩
  | [], y :: l', r, r', _, h', _, e => by
    obtain ⟨b, t, e1, hne⟩ := h' y (List.mem_cons_self ..)
    simp only [List.map_nil, List.flatten_nil, List.nil_append, List.map_cons, List.flatten_cons, e1, List.cons_append] at e
    injection e with e _
    exact absurd e.symm hne
  | x :: l, [], r, r', h, _, _, e => by
    obtain ⟨b, t, e1, hne⟩ := h x (List.mem_cons_self ..)
    simp only [List.map_nil, List.flatten_nil, List.nil_append, List.map_cons, List.flatten_cons, e1, List.cons_append] at e
    injection e with e _
    exact absurd e hne
  | x :: l, y :: l', r, r', h, h', hp, e => by
    simp only [List.map_cons, List.flatten_cons, List.append_assoc] at e
    obtain ⟨e1, e2⟩ := hp x (List.mem_cons_self ..) y (List.mem_cons_self ..) _ _ e
    obtain ⟨e3, e4⟩ := seq_prefix f g l l' r r' (fun z hz => h z (List.mem_cons_of_mem _ hz))
      (fun z hz => h' z (List.mem_cons_of_mem _ hz))
      (fun a ha b hb => hp a (List.mem_cons_of_mem _ ha) b (List.mem_cons_of_mem _ hb)) e2
    exact ⟨by rw [List.map_cons, List.map_cons, e1, e3], e4⟩

theorem encodeElems_present (l : List EVal) :
    (encodeElems l).flatten = ((l.filter fun x => !absent x).map EVal.encode).flatten := by
  induction l with
  | nil => rfl
  | cons v t ih =>
    rw [encodeElems, List.flatten_cons, ih, List.filter_cons]
    by_cases ha : absent v = true
    · simp [ha, encode_absent v ha]
    · simp [ha]

theorem semElems_present (l : List EVal) : semElems l = (l.filter fun x => !absent x).map sem := by
  induction l with
  | nil => rfl
  | cons v t ih =>
    rw [semElems, ih, List.filter_cons]
    by_cases ha : absent v = true
    · simp [ha]
    · simp [ha]

theorem textOkElems_iff (l : List EVal) : TextOkElems l ↔ ∀ x ∈ l, TextOk x := by
  induction l with
  | nil => simp [TextOkElems]
  | cons v t ih => simp [TextOkElems, ih]

theorem textOkEntries_iff (m : List (Bytes × EVal)) : TextOkEntries m ↔ ∀ e ∈ m, validUtf8 e.1 = true ∧ TextOk e.2 := by
  induction m with
  | nil => simp [TextOkEntries]
  | cons a t ih => obtain ⟨k, v⟩ := a; simp [TextOkEntries, ih, and_assoc]

theorem completeElems_iff (l : List EVal) : CompleteElems l ↔ ∀ x ∈ l, absent x = true ∨ Complete x := by
  induction l with
  | nil => simp [CompleteElems]
  | cons v t ih => simp [CompleteElems, ih]

theorem completeEntries_iff (m : List (Bytes × EVal)) : CompleteEntries m ↔ ∀ e ∈ m, Complete e.2 := by
  induction m with
  | nil => simp [CompleteEntries]
  | cons a t ih => obtain ⟨k, v⟩ := a; simp [CompleteEntries, ih]

theorem encode_prefix (t : Ty) : ∀ (x y : EVal) (r r' : Bytes), HasType t x → HasType t y → TextOk x → TextOk y → Complete x →
    Complete y → x.encode ++ r = y.encode ++ r' → sem x = sem y ∧ r = r' := by
  induction t with
  | str =>
    intro x y r r' hx hy tx ty cx cy e
    cases x <;> simp only [HasType] at hx
    cases y <;> simp only [HasType] at hy
    obtain ⟨rfl, rfl⟩ := encStr_prefix tx ty e
    exact ⟨rfl, rfl⟩
  | usize =>
    intro x y r r' hx hy tx ty cx cy e
    cases x <;> simp only [HasType] at hx
    cases y <;> simp only [HasType] at hy
    obtain ⟨rfl, rfl⟩ := encUsize_prefix e
    exact ⟨rfl, rfl⟩
  | bytes =>
    intro x y r r' hx hy tx ty cx cy e
    cases x <;> simp only [HasType] at hx
    cases y <;> simp only [HasType] at hy
    obtain ⟨rfl, rfl⟩ := encBytes_prefix e
    exact ⟨rfl, rfl⟩
  | vec t ih =>
    intro x y r r' hx hy tx ty cx cy e
    cases x <;> simp only [HasType] at hx
    cases y <;> simp only [HasType] at hy
    rename_i l l'
    have tx' := (textOkElems_iff l).mp tx
    have ty' := (textOkElems_iff l').mp ty
    have cx' := (completeElems_iff l).mp cx
    have cy' := (completeElems_iff l').mp cy
    simp only [EVal.encode, encVec, encodeElems_present, List.append_assoc, List.cons_append, List.cons.injEq, true_and,
      List.nil_append] at e
    simp only [sem, semElems_present, BVal.list.injEq]
    have mem : ∀ {l : List EVal} {x}, x ∈ l.filter (fun x => !absent x) → x ∈ l ∧ absent x = false := fun hx => by
      simpa using List.mem_filter.mp hx
    refine seq_prefix EVal.encode sem _ _ r r' (fun x h => encode_begins x (mem h).2)
      (fun x h => encode_begins x (mem h).2) (fun x h y h' r r' e => ?_) e
    exact ih x y r r' (hx x (mem h).1) (hy y (mem h').1) (tx' x (mem h).1) (ty' y (mem h').1)
      ((cx' x (mem h).1).resolve_left (by simp [(mem h).2])) ((cy' y (mem h').1).resolve_left (by simp [(mem h').2])) e
  | map t ih =>
    intro x y r r' hx hy tx ty cx cy e
    cases x <;> simp only [HasType] at hx
    cases y <;> simp only [HasType] at hy
    rename_i m m'
    have tx' := (textOkEntries_iff m).mp tx
    have ty' := (textOkEntries_iff m').mp ty
    have cx' := (completeEntries_iff m).mp cx
    have cy' := (completeEntries_iff m').mp cy
    simp only [EVal.encode, encMap, sortKeys_eq, encodeEntries_eq_map, sortByKey_map (fun e : Bytes × EVal => e.2.encode),
      List.map_map, List.append_assoc, List.cons_append, List.cons.injEq, true_and, List.nil_append] at e
    simp only [sem, semEntries_eq_map, sortByKey_map (fun e : Bytes × EVal => sem e.2), BVal.dict.injEq]
    have mem : ∀ {m : List (Bytes × EVal)} {x}, x ∈ sortByKey m → x ∈ m := fun hx => (sortByKey_perm _).mem_iff.mp hx
    have hb : ∀ e : Bytes × EVal, Begins (encStr e.1 ++ e.2.encode) := fun e => by
      obtain ⟨b, t, h1, h2⟩ := encStr_begins e.1
      exact ⟨b, t ++ e.2.encode, by rw [h1]; rfl, h2⟩
    refine seq_prefix (fun e : Bytes × EVal => encStr e.1 ++ e.2.encode) (fun e => (e.1, sem e.2)) _ _ r r'
      (fun x _ => hb x) (fun x _ => hb x) (fun x h y h' r r' e => ?_) e
    rw [List.append_assoc, List.append_assoc] at e
    obtain ⟨e1, e2⟩ := encStr_prefix (tx' x (mem h)).1 (ty' y (mem h')).1 e
    obtain ⟨e3, e4⟩ := ih x.2 y.2 r r' (hx x (mem h)) (hy y (mem h')) (tx' x (mem h)).2 (ty' y (mem h')).2 (cx' x (mem h)) (cy' y (mem h')) e2
    exact ⟨by rw [e1, e3], e4⟩
  | opt t ih =>
    intro x y r r' hx hy tx ty cx cy e
    cases x <;> try simp only [HasType] at hx
    cases y <;> try simp only [HasType] at hy
    rename_i o o'
    cases o with
    | none => exact cx.elim
    | some v =>
      cases o' with
      | none => exact cy.elim
      | some v' =>
        simp only [sem]
        exact ih v v' r r' hx hy tx ty cx cy (by simpa only [EVal.encode, encOpt, Option.getD_some] using e)

/-! ### Metadata -/

theorem encVec_str_prefix {l l' : List Bytes} {r r' : Bytes} (h : ∀ p ∈ l, validUtf8 p = true) (h' : ∀ p ∈ l', validUtf8 p = true)
    (e : encVec (l.map encStr) ++ r = encVec (l'.map encStr) ++ r') : l = l' ∧ r = r' := by
  simp only [encVec, List.append_assoc, List.cons_append, List.cons.injEq, true_and, List.nil_append] at e
  have := seq_prefix encStr id l l' r r' (fun x _ => encStr_begins x) (fun x _ => encStr_begins x)
    (fun x hx y hy r r' e => encStr_prefix (h x hx) (h' y hy) e) e
  simpa using this

theorem file_prefix {f g : File} {r r' : Bytes} (h : ∀ p ∈ f.path, validUtf8 p = true) (h' : ∀ p ∈ g.path, validUtf8 p = true)
    (e : f.encode ++ r = g.encode ++ r') : f = g ∧ r = r' := by
  have hv : ∀ l : List Bytes, encVec l ≠ [] := fun l => by simp [encVec]
  have hu : ∀ n, encUsize n ≠ [] := fun n => by simp [encUsize]
  simp only [File.encode, encodeDictEntry_of_ne (k := b!"length") (by decide) (hu _), encodeDictEntry_of_ne (k := b!"path") (by decide) (hv _),
    List.flatten_cons, List.flatten_nil, List.append_assoc, List.append_nil] at e
  have e := List.append_cancel_left (List.append_cancel_left e)
  obtain ⟨e1, e⟩ := encUsize_prefix e
  have e := List.append_cancel_left e
  obtain ⟨e2, e⟩ := encVec_str_prefix h h' e
  have last := List.append_cancel_left e
  cases f; cases g
  simp only at e1 e2
  exact ⟨by rw [e1, e2], last⟩

theorem encVec_file_prefix {l l' : List File} {r r' : Bytes} (h : ∀ f ∈ l, ∀ p ∈ f.path, validUtf8 p = true)
    (h' : ∀ f ∈ l', ∀ p ∈ f.path, validUtf8 p = true)
    (e : encVec (l.map File.encode) ++ r = encVec (l'.map File.encode) ++ r') : l = l' ∧ r = r' := by
  simp only [encVec, List.append_assoc, List.cons_append, List.cons.injEq, true_and, List.nil_append] at e
  have hb : ∀ f : File, Begins f.encode := fun f => ⟨_, _, rfl, by decide⟩
  have := seq_prefix File.encode id l l' r r' (fun x _ => hb x) (fun x _ => hb x)
    (fun x hx y hy r r' e => file_prefix (h x hx) (h' y hy) e) e
  simpa using this

/-- An optional entry followed by something that begins otherwise. -/
theorem entry_prefix {α : Type} {f : α → Bytes} {k : Bytes} {o o' : Option α} {r r' : Bytes} (hk : k ≠ [])
    (hf : ∀ x, f x ≠ []) (hp : ∀ x ∈ o, ∀ y ∈ o', ∀ r r', f x ++ r = f y ++ r' → x = y ∧ r = r')
    (hd : (encStr k).take 1 ≠ r.take 1) (hd' : (encStr k).take 1 ≠ r'.take 1)
    (e : encodeDictEntry k (encOpt (o.map f)) ++ r = encodeDictEntry k (encOpt (o'.map f)) ++ r') : o = o' ∧ r = r' := by
  have hn : encodeDictEntry k (encOpt (none : Option Bytes)) = [] := by simp [encodeDictEntry, encOpt]
  have hs : ∀ x, encodeDictEntry k (encOpt (some (f x))) = encStr k ++ f x := fun x => encodeDictEntry_of_ne hk (hf x)
  have h1 : 1 ≤ (encStr k).length := by
    have := encStr_ne_nil k
    cases h : encStr k with
    | nil => exact absurd h this
    | cons a t => simp
  have ht : ∀ y : Bytes, (encStr k ++ y).take 1 = (encStr k).take 1 := fun y => by
    rw [List.take_append_of_le_length h1]
  cases o with
  | none =>
    cases o' with
    | none =>
      simp only [Option.map_none, hn, List.nil_append] at e
      exact ⟨rfl, e⟩
    | some y =>
      simp only [Option.map_none, Option.map_some, hn, hs, List.nil_append, List.append_assoc] at e
      rw [e, ht] at hd
      exact absurd rfl hd
  | some x =>
    cases o' with
    | none =>
      simp only [Option.map_none, Option.map_some, hn, hs, List.nil_append, List.append_assoc] at e
      rw [← e, ht] at hd'
      exact absurd rfl hd'
    | some y =>
      simp only [Option.map_some, hs, List.append_assoc] at e
      obtain ⟨rfl, rfl⟩ := hp x rfl y rfl _ _ (List.append_cancel_left e)
      exact ⟨rfl, rfl⟩

/-- `String`s hold text. -/
theorem info_prefix {i j : Info} {r r' : Bytes} (hi : InfoText i) (hj : InfoText j) (e : i.encode ++ r = j.encode ++ r') :
    i = j ∧ r = r' := by
  have hv : ∀ l : List Bytes, encVec l ≠ [] := fun l => by simp [encVec]
  have hu : ∀ n, encUsize n ≠ [] := fun n => by simp [encUsize]
  have hb : ∀ n, encBytes n ≠ [] := fun n => by simp [encBytes]
  simp only [Info.encode, List.flatten_cons, List.flatten_nil, List.append_assoc, List.append_nil] at e
  have e := List.append_cancel_left e
  simp only [encodeDictEntry_of_ne (k := b!"name") (by decide) (encStr_ne_nil _),
    encodeDictEntry_of_ne (k := b!"piece length") (by decide) (hu _), encodeDictEntry_of_ne (k := b!"pieces") (by decide) (hb _),
    List.append_assoc] at e
  have t4 : ∀ t : Bytes, (encStr b!"name" ++ t).take 1 = b!"4" := fun t => rfl
  have t6 : ∀ (o : Option Nat) (t : Bytes),
      (encodeDictEntry b!"length" (encOpt (o.map encUsize)) ++ (encStr b!"name" ++ t)).take 1 = b!"4" ∨
      (encodeDictEntry b!"length" (encOpt (o.map encUsize)) ++ (encStr b!"name" ++ t)).take 1 = b!"6" := fun o t => by
    cases o with
    | none => exact .inl rfl
    | some n => exact .inr rfl
  obtain ⟨e1, e⟩ := entry_prefix (f := fun fs => encVec (fs.map File.encode)) (k := b!"files") (by decide) (fun _ => hv _)
    (fun x hx y hy r r' e => encVec_file_prefix (hi.files x hx) (hj.files y hy) e)
    (by rcases t6 i.length _ with h | h <;> rw [h] <;> decide) (by rcases t6 j.length _ with h | h <;> rw [h] <;> decide) e
  obtain ⟨e2, e⟩ := entry_prefix (f := encUsize) (k := b!"length") (by decide) hu (fun x _ y _ r r' e => encUsize_prefix e)
    (by rw [t4]; decide) (by rw [t4]; decide) e
  obtain ⟨e3, e⟩ := encStr_prefix hi.name hj.name (List.append_cancel_left e)
  obtain ⟨e4, e⟩ := encUsize_prefix (List.append_cancel_left e)
  obtain ⟨e5, last⟩ := encBytes_prefix (List.append_cancel_left e)
  cases i; cases j
  simp only at e1 e2 e3 e4 e5
  exact ⟨by rw [e1, e2, e3, e4, e5], List.append_cancel_left last⟩

end RustBit
