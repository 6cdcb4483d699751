/- What survives encoding and decoding: a document is no shorter than what it stands for. -/
import Verif.Proofs.EncodeTyped
import Verif.Proofs.Messages
import Verif.Spec.RoundTrip

namespace RustBit
open Spec

/-! ### The size of a value -/

/-- The bytes a string takes in a document. -/
def strSize (s : Bytes) : Nat := (decimal s.length).length + 1 + s.length

mutual
/-- The bytes a value takes in its document; a missing value takes none. -/
def docSize : Metainfo → Nat
  | .integer n => (decimal n).length + 2
  | .string s => strSize s
  | .list l => elemsSize l + 2
  | .dictionary d => entriesSize d + 2
  | .nothing => 0
def elemsSize : List Metainfo → Nat
  | [] => 0
  | v :: t => max 1 (docSize v) + elemsSize t
def entriesSize : List (Bytes × Metainfo) → Nat
  | [] => 0
  | (k, v) :: t => strSize k + docSize v + entriesSize t
end

theorem entriesSize_perm {l l' : List (Bytes × Metainfo)} (h : l.Perm l') : entriesSize l = entriesSize l' := by
  induction h with
  | nil => rfl
  | cons x _ ih => obtain ⟨k, v⟩ := x; simp only [entriesSize]; omega
  | swap x y l => obtain ⟨k, v⟩ := x; obtain ⟨k', v'⟩ := y; simp only [entriesSize]; omega
  | trans _ _ h1 h2 => omega

theorem entriesSize_append (l l' : List (Bytes × Metainfo)) : entriesSize (l ++ l') = entriesSize l + entriesSize l' := by
  induction l with
  | nil => simp [entriesSize]
  | cons x t ih => obtain ⟨k, v⟩ := x; simp only [List.cons_append, entriesSize, ih]; omega

theorem strSize_pos (s : Bytes) : 2 ≤ strSize s := by
  have := (isDecimal_decimal s.length).nonempty
  have : 0 < (decimal s.length).length := List.length_pos_iff.mpr this
  unfold strSize
  omega

theorem digits_min {ds : Bytes} (h0 : ds ≠ []) (h : ∀ d ∈ ds, isDigit d = true) : (decimal (value ds)).length ≤ ds.length :=
  decimal_length_lt _ _ (List.length_pos_iff.mpr h0) (value_lt ds fun d hd => (isDigit_iff d).mp (h d hd))

theorem lenientStr_size {s bs : Bytes} (h : LenientStr s bs) : strSize s ≤ bs.length := by
  cases h with
  | mk h0 h1 h2 h3 h4 =>
    have := digits_min h0 h1
    rw [h3] at this
    simp only [strSize, List.length_append, List.length_cons]
    omega

theorem mapInsert_size (acc : List (Bytes × Metainfo)) (k : Bytes) (v : Metainfo) :
    entriesSize (mapInsert acc k v) ≤ entriesSize acc + (strSize k + docSize v) ∧
      (entriesSize (mapInsert acc k v) = entriesSize acc + (strSize k + docSize v) → k ∉ acc.map Prod.fst) := by
  induction acc with
  | nil => simp [mapInsert, entriesSize]
  | cons a t ih =>
    obtain ⟨k0, v0⟩ := a
    simp only [mapInsert]
    split
    · rename_i hk
      subst hk
      have := strSize_pos k0
      simp only [entriesSize]
      exact ⟨by omega, fun h => by omega⟩
    · rename_i hk
      simp only [entriesSize, List.map_cons, List.mem_cons, not_or]
      exact ⟨by omega, fun h => ⟨fun e => hk e.symm, ih.2 (by omega)⟩⟩

mutual
theorem lenient_size {v : Metainfo} {bs : Bytes} (h : Lenient v bs) : docSize v ≤ bs.length ∧ 1 ≤ bs.length := by
  match h with
  | .int h0 h1 _ _ =>
    have := digits_min h0 h1
    simp only [docSize, List.length_cons, List.length_append, List.length_nil]
    omega
  | .str hs _ =>
    have := lenientStr_size hs
    have := strSize_pos (by assumption)
    simp only [docSize]
    omega
  | .list hl =>
    have := lenientElems_size hl
    simp only [docSize, List.length_cons, List.length_append, List.length_nil]
    omega
  | .dict hd =>
    have := lenientEntries_size hd
    simp only [docSize, List.length_cons, List.length_append, List.length_nil, entriesSize] at this ⊢
    omega
theorem lenientElems_size {l : List Metainfo} {bs : Bytes} (h : LenientElems l bs) : elemsSize l ≤ bs.length := by
  match h with
  | .nil => simp [elemsSize]
  | .cons hv hl =>
    have h1 := lenient_size hv
    have h2 := lenientElems_size hl
    simp only [elemsSize, List.length_append]
    omega
theorem lenientEntries_size {acc m : List (Bytes × Metainfo)} {bs : Bytes} (h : LenientEntries acc m bs) :
    entriesSize m ≤ entriesSize acc + bs.length := by
  match h with
  | .nil => simp
  | .cons hk _ hv hl =>
    have h1 := lenient_size hv
    have h2 := lenientEntries_size hl
    have h3 := Nat.le_trans (mapInsert_size acc _ _).1 (Nat.add_le_add_left (Nat.add_le_add (lenientStr_size hk) h1.1) _)
    simp only [List.length_append]
    omega
  | .noValue hk _ _ hl =>
    have h2 := lenientEntries_size hl
    have h3 := Nat.le_trans (mapInsert_size acc _ .nothing).1 (Nat.add_le_add_left (Nat.add_le_add (lenientStr_size hk) (Nat.le_refl _)) _)
    simp only [docSize] at h3
    simp only [List.length_append]
    omega
end

theorem lenient_two {v : Metainfo} {bs : Bytes} (h : Lenient v bs) : 2 ≤ docSize v := by
  cases h with
  | int => simp only [docSize]; omega
  | str => exact strSize_pos _
  | list => simp only [docSize]; omega
  | dict => simp only [docSize]; omega

/-! ### Readings that waste nothing -/

/-- The entries as they were read, one after the other. -/
inductive ReadPlain : List (Bytes × Metainfo) → Bytes → Prop
  | nil : ReadPlain [] []
  | cons {k v ks bs t bs'} : LenientStr k ks → Lenient v bs → bs.length = docSize v → ReadPlain t bs' → ReadPlain ((k, v) :: t) (ks ++ bs ++ bs')
  | noValue {k ks t bs'} : LenientStr k ks → ReadPlain t bs' → ReadPlain ((k, .nothing) :: t) (ks ++ bs')

/-- A dictionary that takes no more bytes than it has to was read without overwriting anything. -/
theorem plain_of_size {acc m : List (Bytes × Metainfo)} {bs : Bytes} (h : LenientEntries acc m bs) (he : entriesSize m = entriesSize acc + bs.length) :
    ∃ t, m = acc ++ t ∧ ReadPlain t bs := by
  match h with
  | .nil => exact ⟨[], by simp, .nil⟩
  | .cons (k := k) (v := v) hk hu hv hl =>
    have h1 := lenient_size hv
    have h2 := lenientEntries_size hl
    have h3 := mapInsert_size acc k v
    have h4 := lenientStr_size hk
    simp only [List.length_append] at he
    have hn := h3.2 (by omega)
    obtain ⟨t, e, hp⟩ := plain_of_size hl (by omega)
    rw [mapInsert_of_not_mem _ _ _ hn, List.append_assoc] at e
    exact ⟨_, e, .cons hk hv (by omega) hp⟩
  | .noValue (k := k) hk hu hv hl =>
    have h2 := lenientEntries_size hl
    have h3 := mapInsert_size acc k .nothing
    have h4 := lenientStr_size hk
    simp only [docSize] at h3
    simp only [List.length_append] at he
    have hn := h3.2 (by omega)
    obtain ⟨t, e, hp⟩ := plain_of_size hl (by omega)
    rw [mapInsert_of_not_mem _ _ _ hn, List.append_assoc] at e
    exact ⟨_, e, .noValue hk hp⟩

/-! ### Encodings are no longer than what they stand for -/

theorem encStr_size (s : Bytes) : (encStr s).length ≤ strSize s := by
  have := decimal_length_mono (charCount_le s)
  simp only [encStr, strSize, List.length_append, List.length_cons]
  omega

theorem encodeEntries_size (es : List (Bytes × EVal)) (h : ∀ e ∈ es, ∀ m, StandsFor m (sem e.2) → e.2.encode.length ≤ docSize m)
    {d : List (Bytes × Metainfo)} (hd : StandForEntries d (semEntries es)) :
    ((encodeEntries es).map (fun kv => encStr kv.1 ++ kv.2)).flatten.length ≤ entriesSize d := by
  induction es generalizing d with
  | nil => exact Nat.zero_le _
  | cons a t ih =>
    obtain ⟨k, v⟩ := a
    rw [semEntries] at hd
    cases hd with
    | cons hv hl =>
      have h1 := h (k, v) (List.mem_cons_self ..) _ hv
      have h2 := ih (fun e he => h e (List.mem_cons_of_mem _ he)) hl
      have h3 := encStr_size k
      simp only [encodeEntries, List.map_cons, List.flatten_cons, List.length_append, entriesSize] at h1 h2 ⊢
      omega

mutual
theorem encode_size (x : EVal) (m : Metainfo) (h : StandsFor m (sem x)) : x.encode.length ≤ docSize m := by
  match x with
  | .str s => rw [sem] at h; cases h; exact encStr_size s
  | .usize n =>
    rw [sem] at h
    generalize e : ((n : Nat) : Int) = j at h
    cases h with
    | int =>
      have := Int.ofNat.inj e
      subst this
      simp [EVal.encode, encUsize, docSize]
  | .bytes b => rw [sem] at h; cases h; simp [EVal.encode, encBytes, docSize, strSize]; omega
  | .vec l =>
    rw [sem] at h
    cases h with
    | list hl =>
      have := encodeElems_size l _ hl
      simp only [EVal.encode, encVec, docSize, List.length_cons, List.length_append, List.length_nil]
      omega
  | .map m =>
    rw [sem] at h
    cases h with
    | dict hp hd =>
      rw [semEntries_eq_map, sortByKey_map (fun e : Bytes × EVal => sem e.2), ← semEntries_eq_map] at hd
      have := encodeEntries_size (sortByKey m) (fun e he => encodeEntry_size m e ((sortByKey_perm m).mem_iff.mp he)) hd
      rw [EVal.encode, encMap, sortKeys_eq, encodeEntries_eq_map, sortByKey_map (fun e : Bytes × EVal => e.2.encode), ← encodeEntries_eq_map]
      simp only [docSize, List.length_cons, List.length_append, List.length_nil, entriesSize_perm hp]
      omega
  | .opt none => exact Nat.zero_le _
  | .opt (some v) => rw [sem] at h; rw [EVal.encode]; exact encode_size v m h
theorem encodeElems_size (l : List EVal) (ms : List Metainfo) (h : StandForElems ms (semElems l)) : (encodeElems l).flatten.length ≤ elemsSize ms := by
  match l with
  | [] => exact Nat.zero_le _
  | v :: t =>
    rw [encodeElems, List.flatten_cons, List.length_append]
    rw [semElems] at h
    by_cases ha : absent v = true
    · rw [if_pos ha] at h
      have := encodeElems_size t ms h
      rw [encode_absent v ha]
      simpa using this
    · rw [if_neg ha] at h
      cases h with
      | cons hv hl =>
        have h1 := encode_size v _ hv
        have h2 := encodeElems_size t _ hl
        simp only [elemsSize]
        omega
theorem encodeEntry_size (es : List (Bytes × EVal)) : ∀ e ∈ es, ∀ m, StandsFor m (sem e.2) → e.2.encode.length ≤ docSize m := by
  match es with
  | [] => intro e he; cases he
  | (k, v) :: t =>
    intro e he
    rcases List.mem_cons.mp he with rfl | he
    · exact encode_size v
    · exact encodeEntry_size t e he
end

/-! ### Reading an encoding -/

theorem lt_append (k s : Bytes) (hs : s ≠ []) : k < k ++ s := by
  induction k with
  | nil =>
    cases s with
    | nil => exact absurd rfl hs
    | cons b t => exact List.nil_lt_cons b t
  | cons b k ih => exact List.cons_lt_cons_iff.mpr (.inr ⟨rfl, ih⟩)

/-- What is read where a text was written: the first bytes of it, as many as it has characters. -/
theorem read_encStr {s k ks r r' : Bytes} (h : LenientStr k ks) (e : encStr s ++ r' = ks ++ r) :
    k.length = charCount s ∧ ∃ t, s = k ++ t ∧ (k = s → r' = r ∧ ks = encStr s) := by
  cases h with
  | mk h0 h1 h2 h3 h4 =>
    rename_i ds x
    simp only [encStr, List.append_assoc, List.cons_append] at e
    obtain ⟨e1, e2, e3⟩ := digits_prefix (isDigit_of_isDecimal (isDecimal_decimal _)) h1 (by decide) h2 e
    have hl : k.length = charCount s := by
      rw [← h3, ← e1, (isDecimal_decimal _).denotes]
    refine ⟨hl, s.drop k.length, ?_, ?_⟩
    · have := congrArg (List.take k.length) e3
      have hle : k.length ≤ s.length := by rw [hl]; exact charCount_le s
      rw [List.take_append_of_le_length hle, List.take_left' rfl] at this
      conv => lhs; rw [← List.take_append_drop k.length s, this]
    · intro hk
      subst hk
      exact ⟨List.append_cancel_left e3, by rw [encStr, e1, e2]⟩

/-- An encoding that is read as what it should stand for, without waste, is of a value the encoder handles, and is read to its end. -/
def Aligned (x : EVal) : Prop := ∀ m bs r r', Lenient m bs → bs.length = docSize m → StandsFor m (sem x) → x.encode ++ r' = bs ++ r →
  Encodable x ∧ bs = x.encode ∧ m = toMeta (sem x)

theorem str_aligned {s bs r r' : Bytes} (hv : validUtf8 s = true) (h : LenientStr s bs) (e : encStr s ++ r' = bs ++ r) : Ascii s ∧ bs = encStr s := by
  obtain ⟨h1, t, h2, h3⟩ := read_encStr h e
  exact ⟨ascii_of_charCount s hv h1.symm, (h3 rfl).2⟩

theorem meansEntries_keys {d : List (Bytes × Metainfo)} {e : List (Bytes × BVal)} (h : StandForEntries d e) : d.map Prod.fst = e.map Prod.fst := by
  match h with
  | .nil => rfl
  | .cons _ hl => simp [meansEntries_keys hl]

theorem meansEntries_ne {d : List (Bytes × Metainfo)} {e : List (Bytes × BVal)} (h : StandForEntries d e) : ∀ x ∈ d, x.2 ≠ .nothing := by
  match h with
  | .nil => intro x hx; cases hx
  | .cons hv hl =>
    intro x hx
    rcases List.mem_cons.mp hx with rfl | hx
    · intro e; simp only at e; subst e; cases hv
    · exact meansEntries_ne hl x hx

theorem entries_aligned (es : List (Bytes × EVal)) (hs : (es.map Prod.fst).Pairwise (· < ·)) (ht : ∀ e ∈ es, validUtf8 e.1 = true ∧ Aligned e.2)
    {ds d1 : List (Bytes × Metainfo)} {bs r r' : Bytes} (hp : ReadPlain ds bs) (hperm : ds.Perm d1) (hm : StandForEntries d1 (semEntries es))
    (e : ((encodeEntries es).map (fun kv => encStr kv.1 ++ kv.2)).flatten ++ r' = bs ++ r) :
    (∀ e ∈ es, Ascii e.1 ∧ Encodable e.2) ∧ bs = ((encodeEntries es).map (fun kv => encStr kv.1 ++ kv.2)).flatten ∧ ds = toMetaEntries (semEntries es) := by
  induction es generalizing ds d1 bs with
  | nil =>
    rw [semEntries] at hm
    cases hm
    have := List.Perm.eq_nil hperm
    subst this
    cases hp
    exact ⟨by simp, rfl, rfl⟩
  | cons a t ih =>
    obtain ⟨k1, x1⟩ := a
    have hkeys := meansEntries_keys hm
    have hne := meansEntries_ne hm
    rw [semEntries] at hm
    cases hm with
    | cons hv hl =>
      rename_i v1 l1
      -- the entry that is read first
      have hfirst : ∀ {k : Bytes} {ks rest : Bytes}, LenientStr k ks →
          (k ∈ ((k1, v1) :: l1).map Prod.fst) → encStr k1 ++ (x1.encode ++ (((encodeEntries t).map (fun kv => encStr kv.1 ++ kv.2)).flatten ++ r')) = ks ++ rest →
          k = k1 ∧ Ascii k1 ∧ ks = encStr k1 ∧ x1.encode ++ (((encodeEntries t).map (fun kv => encStr kv.1 ++ kv.2)).flatten ++ r') = rest := by
        intro k ks rest hk hmem heq
        obtain ⟨h1, s, h2, h3⟩ := read_encStr hk heq
        have hk1 : k = k1 := by
          apply Classical.byContradiction
          intro hn
          have hlt : k < k1 := by
            rw [h2]
            exact lt_append k s (by rintro rfl; rw [List.append_nil] at h2; exact hn h2.symm)
          rw [hkeys] at hmem
          simp only [semEntries, List.map_cons, List.mem_cons] at hmem
          rcases hmem with rfl | hmem
          · exact hn rfl
          · have hmem' : k ∈ t.map Prod.fst := by
              rw [semEntries_eq_map] at hmem
              simpa using hmem
            have := (List.pairwise_cons.mp hs).1 k hmem'
            exact List.lt_irrefl k (List.lt_trans hlt this)
        obtain ⟨h4, h5⟩ := h3 hk1
        subst hk1
        exact ⟨rfl, ascii_of_charCount k (ht _ (List.mem_cons_self ..)).1 h1.symm, h5, h4⟩
      simp only [encodeEntries, List.map_cons, List.flatten_cons, List.append_assoc] at e
      cases hp with
      | nil =>
        have := List.Perm.nil_eq hperm
        cases this
      | cons hk hlv hsz hp' =>
        rename_i k v ks b t' b'
        have hmem : k ∈ ((k1, v1) :: l1).map Prod.fst := (hperm.map Prod.fst).mem_iff.mp (by simp)
        rw [List.append_assoc, List.append_assoc] at e
        obtain ⟨rfl, ha, hks, e1⟩ := hfirst hk hmem e
        have hnd : (((k, v1) :: l1).map Prod.fst).Nodup := by
          rw [hkeys, semEntries_eq_map, List.map_map]
          have : (((k, x1) :: t).map Prod.fst).Nodup := by
            refine List.Pairwise.imp (S := (· ≠ ·)) ?_ hs
            intro a b h e
            subst e
            exact List.lt_irrefl _ h
          exact this
        have hv1 : v = v1 := by
          have : (k, v) ∈ (k, v1) :: l1 := hperm.mem_iff.mp (List.mem_cons_self ..)
          rcases List.mem_cons.mp this with h | h
          · exact (Prod.mk.inj h).2
          · exact absurd (List.mem_map_of_mem (f := Prod.fst) h) (List.nodup_cons.mp hnd).1
        subst hv1
        obtain ⟨g1, g2, g3⟩ := (ht _ (List.mem_cons_self ..)).2 v b _ _ hlv hsz hv e1
        simp only at g1 g2 g3
        subst g2
        have e2 := List.append_cancel_left e1
        obtain ⟨i1, i2, i3⟩ := ih (List.pairwise_cons.mp hs).2 (fun e he => ht e (List.mem_cons_of_mem _ he)) hp' (List.Perm.cons_inv hperm) hl e2
        refine ⟨?_, ?_, ?_⟩
        · intro x hx
          rcases List.mem_cons.mp hx with rfl | hx
          · exact ⟨ha, g1⟩
          · exact i1 x hx
        · simp only [encodeEntries, List.map_cons, List.flatten_cons, hks, ← i2, List.append_assoc]
        · simp only [semEntries, toMetaEntries, ← i3, ← g3]
      | noValue hk hp' =>
        exact absurd rfl (hne _ (hperm.mem_iff.mp (List.mem_cons_self ..)))

theorem value_pos {b : UInt8} {t : Bytes} (hd : isDigit b = true) (hb : b ≠ 48) : 0 < value (b :: t) := by
  rw [value_cons]
  have := (isDigit_iff b).mp hd
  have h48 : b.toNat ≠ 48 := fun h => hb (UInt8.toNat_inj.mp h)
  have : 1 ≤ (b.toNat - 48) := by omega
  have := Nat.mul_le_mul this (Nat.pow_pos (n := t.length) (show 0 < 10 by decide))
  omega

mutual
theorem aligned (x : EVal) (ht : TextOk x) (ho : OneEntryPerKey x) : Aligned x := by
  intro m bs r r' hl hs hm e
  match x with
  | .str s =>
    rw [sem] at hm
    cases hm
    cases hl with
    | str h _ =>
      obtain ⟨h1, h2⟩ := str_aligned ht h e
      exact ⟨h1, h2, rfl⟩
  | .usize n =>
    rw [sem] at hm
    generalize hj : ((n : Nat) : Int) = j at hm
    cases hm with
    | int =>
      have := Int.ofNat.inj hj
      subst this
      generalize hv : Metainfo.integer n = w at hl
      cases hl with
      | int h0 h1 h2 h3 =>
        rename_i ds x
        cases hv
        simp only [EVal.encode, encUsize, List.cons_append, List.append_assoc, List.nil_append, List.cons.injEq, true_and] at e
        obtain ⟨e1, e2, e3⟩ := digits_prefix (isDigit_of_isDecimal (isDecimal_decimal _)) h1 (by decide) h2 e
        refine ⟨trivial, ?_, ?_⟩
        · rw [EVal.encode, encUsize, e1, e2]; rfl
        · simp [sem, toMeta]
      | _ => cases hv
  | .bytes b =>
    rw [sem] at hm
    cases hm
    cases hl with
    | str h _ =>
      cases h with
      | mk h0 h1 h2 h3 h4 =>
        simp only [EVal.encode, encBytes, List.cons_append, List.append_assoc] at e
        obtain ⟨e1, e2, e3⟩ := digits_prefix (isDigit_of_isDecimal (isDecimal_decimal _)) h1 (by decide) h2 e
        exact ⟨trivial, by rw [EVal.encode, encBytes, e1, e2], rfl⟩
  | .vec l =>
    rw [sem] at hm
    cases hm with
    | list hme =>
      cases hl with
      | list hle =>
        simp only [docSize, List.length_cons, List.length_append, List.length_nil] at hs
        simp only [EVal.encode, encVec, List.cons_append, List.append_assoc, List.nil_append, List.cons.injEq, true_and] at e
        obtain ⟨h1, h2, h3⟩ := alignedElems l ht ho _ _ _ _ hle (by omega) hme e
        refine ⟨h1, by rw [EVal.encode, encVec, h2]; rfl, ?_⟩
        rw [sem, toMeta, h3]
  | .map es =>
    rw [sem] at hm
    cases hm with
    | dict hperm hme =>
      cases hl with
      | dict hle =>
        simp only [docSize, List.length_cons, List.length_append, List.length_nil] at hs
        obtain ⟨t, ht1, ht2⟩ := plain_of_size hle (by simp only [entriesSize]; omega)
        rw [List.nil_append] at ht1
        subst ht1
        have hsem : sortByKey (semEntries es) = semEntries (sortByKey es) := by
          rw [semEntries_eq_map, sortByKey_map (fun e : Bytes × EVal => sem e.2), ← semEntries_eq_map]
        have henc : sortKeys (encodeEntries es) = encodeEntries (sortByKey es) := by
          rw [sortKeys_eq, encodeEntries_eq_map, sortByKey_map (fun e : Bytes × EVal => e.2.encode), ← encodeEntries_eq_map]
        rw [hsem] at hme
        simp only [EVal.encode, encMap, henc, List.cons_append, List.append_assoc, List.nil_append, List.cons.injEq, true_and] at e
        obtain ⟨h1, h2, h3⟩ := entries_aligned (sortByKey es) (sortByKey_strict es ho.1)
          (fun e he => alignedEntries es ht ho.2 e ((sortByKey_perm es).mem_iff.mp he)) ht2 hperm hme e
        refine ⟨⟨ho.1, ?_⟩, ?_, ?_⟩
        · rw [encodableEntries_iff]
          exact fun e he => h1 e ((sortByKey_perm es).mem_iff.mpr he)
        · rw [EVal.encode, encMap, henc, h2]; rfl
        · rw [sem, toMeta, hsem, h3]
  | .opt none =>
    rw [sem] at hm
    cases hm
    cases hl with
    | str h h48 =>
      cases h with
      | mk h0 h1 h2 h3 h4 =>
        rename_i ds x
        cases ds with
        | nil => exact absurd rfl h0
        | cons b t =>
          have := value_pos (t := t) (h1 b (by simp)) (by rintro rfl; simp at h48)
          rw [h3] at this
          exact absurd this (by simp)
  | .opt (some v) =>
    rw [sem] at hm
    rw [EVal.encode] at e
    exact aligned v ht ho m bs r r' hl hs hm e
theorem alignedElems (l : List EVal) (ht : TextOkElems l) (ho : OneEntryPerKeyElems l) (ms : List Metainfo) (bs r r' : Bytes)
    (hl : LenientElems ms bs) (hs : bs.length = elemsSize ms) (hm : StandForElems ms (semElems l)) (e : (encodeElems l).flatten ++ r' = bs ++ r) :
    EncodableElems l ∧ bs = (encodeElems l).flatten ∧ ms = toMetaElems (semElems l) := by
  match l with
  | [] =>
    rw [semElems] at hm
    cases hm
    cases hl
    exact ⟨trivial, rfl, rfl⟩
  | v :: t =>
    rw [encodeElems, List.flatten_cons] at e ⊢
    rw [semElems] at hm ⊢
    by_cases ha : absent v = true
    · rw [if_pos ha] at hm ⊢
      rw [encode_absent v ha, List.nil_append] at e ⊢
      obtain ⟨h1, h2, h3⟩ := alignedElems t ht.2 ho.2 ms bs r r' hl hs hm e
      exact ⟨⟨.inl ha, h1⟩, h2, h3⟩
    · rw [if_neg ha] at hm ⊢
      cases hm with
      | cons hmv hml =>
        cases hl with
        | cons hlv hll =>
          have s1 := lenient_size hlv
          have s2 := lenientElems_size hll
          have s3 := lenient_two hlv
          simp only [elemsSize, List.length_append] at hs
          rw [List.append_assoc, List.append_assoc] at e
          obtain ⟨g1, g2, g3⟩ := aligned v ht.1 ho.1 _ _ _ _ hlv (by omega) hmv e
          rw [g2] at e
          have e2 := List.append_cancel_left e
          obtain ⟨i1, i2, i3⟩ := alignedElems t ht.2 ho.2 _ _ _ _ hll (by omega) hml e2
          exact ⟨⟨.inr g1, i1⟩, by rw [g2, i2], by rw [toMetaElems, ← g3, ← i3]⟩
theorem alignedEntries (m : List (Bytes × EVal)) (ht : TextOkEntries m) (ho : OneEntryPerKeyEntries m) :
    ∀ e ∈ m, validUtf8 e.1 = true ∧ Aligned e.2 := by
  match m with
  | [] => intro e he; cases he
  | (k, v) :: t =>
    intro e he
    rcases List.mem_cons.mp he with rfl | he
    · exact ⟨ht.1, aligned v ht.2.1 ho.1⟩
    · exact alignedEntries t ht.2.2 ho.2 e he
end

end RustBit
