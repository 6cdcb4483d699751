/-
Properties C03, C12, C13: exactly what survives encoding and decoding.
-/
import Verif.Proofs.RoundTrip
import Verif.Props.InfoExact

namespace RustBit
open Spec Decoder

theorem meansEntries_nil {d : List (Bytes × Metainfo)} (h : StandForEntries d []) : d = [] := by cases h; rfl

mutual
/-- A value without negative numbers is stood for by its counterpart. -/
theorem means_toMeta (v : BVal) (h : Readable v) : StandsFor (toMeta v) v := by
  match v with
  | .int i =>
    have h1 := h.1
    have : i = ((i.toNat : Nat) : Int) := by omega
    rw [toMeta]
    generalize i.toNat = n at this
    subst this
    exact .int
  | .str s => exact .str
  | .list l => exact .list (meansElems_toMeta l h)
  | .dict d => exact .dict (.refl _) (meansEntries_toMeta d h)
theorem meansElems_toMeta (l : List BVal) (h : ReadableElems l) : StandForElems (toMetaElems l) l := by
  match l with
  | [] => exact .nil
  | v :: t => exact .cons (means_toMeta v h.1) (meansElems_toMeta t h.2)
theorem meansEntries_toMeta (d : List (Bytes × BVal)) (h : ReadableEntries d) : StandForEntries (toMetaEntries d) d := by
  match d with
  | [] => exact .nil
  | (k, v) :: t => exact .cons (means_toMeta v h.2.2.1) (meansEntries_toMeta t h.2.2.2)
end

/-- C03, exactly: a value survives encoding and decoding just if all its text is ASCII, nothing in it is absent other than as an element of a
list, its numbers fit in 64 bits and its strings other than keys are not empty. (`TextOk` and `OneEntryPerKey` hold of every Rust value.) No
value with other text is read back as itself by luck. -/
theorem C03_exact (x : EVal) (ht : TextOk x) (ho : OneEntryPerKey x) :
    (∃ m n, decode x.encode = .ok (m, n) ∧ StandsFor m (sem x)) ↔ Encodable x ∧ Readable (sem x) := by
  constructor
  · rintro ⟨m, n, hd, hm⟩
    have hn : 0 < n := by
      apply Nat.pos_of_ne_zero
      rintro rfl
      obtain ⟨rfl, -⟩ := (C11_nothing_exactly_partial _ _).mp hd
      cases hm
    obtain ⟨hle, hl⟩ := (C11_accepts_exactly_partial _ _ _ hn).mp hd
    have h1 := lenient_size hl
    have h2 := encode_size x m hm
    have hlen : (x.encode.take n).length = n := by rw [List.length_take]; omega
    obtain ⟨he, hb, hm'⟩ := aligned x ht ho m (x.encode.take n) (x.encode.drop n) [] hl (by omega) hm (by simp)
    refine ⟨he, ?_⟩
    rw [← C01_exact (sem x) x.encode [] (isBencode_encode x he) (distinct_of_canonical _ (canonical_sem x he)), List.append_nil, hd, ← hm']
    have : n = x.encode.length := by rw [hb] at hlen; exact hlen.symm
    rw [this]
  · rintro ⟨he, hr⟩
    have := C03_roundtrip_partial x [] he hr
    rw [List.append_nil] at this
    exact ⟨_, _, this, means_toMeta _ hr⟩

/-- Non-vacuity: the values of the refutations are in the range of the theorem, and so is one that survives. -/
example : TextOk (.vec [.str smuggled]) ∧ OneEntryPerKey (.vec [.str smuggled]) ∧ TextOk sampleVal ∧ OneEntryPerKey sampleVal ∧ Encodable sampleVal := by
  refine ⟨⟨show validUtf8 smuggled = true by decide +kernel, trivial⟩, ⟨trivial, trivial⟩, ?_, ?_, sampleVal_encodable⟩ <;>
    simp only [sampleVal, TextOk, TextOkElems, TextOkEntries, OneEntryPerKey, OneEntryPerKeyElems, OneEntryPerKeyEntries] <;> decide

/-! ### Metadata as a value of the encoder -/

theorem key1 : (b!"length" : Bytes) ≤ b!"path" := by decide
theorem key2 : (b!"files" : Bytes) ≤ b!"length" := by decide
theorem key3 : (b!"files" : Bytes) ≤ b!"name" := by decide
theorem key4 : (b!"length" : Bytes) ≤ b!"name" := by decide
theorem key5 : (b!"name" : Bytes) ≤ b!"piece length" := by decide
theorem key6 : (b!"piece length" : Bytes) ≤ b!"pieces" := by decide

/-- A file entry as the encoder sees it. -/
def fileVal (f : File) : EVal := .map [(b!"length", .usize f.length), (b!"path", .vec (f.path.map .str))]

/-- Metadata as the encoder sees it. -/
def infoVal (i : Info) : EVal :=
  .map ((i.files.map fun fs => (b!"files", EVal.vec (fs.map fileVal))).toList ++
    (i.length.map fun (n : Nat) => (b!"length", EVal.usize n)).toList ++
    [(b!"name", .str i.name), (b!"piece length", .usize i.pieceLength), (b!"pieces", .bytes i.pieces)])

theorem encodeElems_eq_map (l : List EVal) : encodeElems l = l.map EVal.encode := by
  induction l with
  | nil => rfl
  | cons v t ih => simp [encodeElems, ih]

theorem semElems_eq_map (l : List EVal) (h : ∀ v ∈ l, absent v = false) : semElems l = l.map sem := by
  induction l with
  | nil => rfl
  | cons v t ih =>
    rw [semElems, if_neg (by rw [h v (by simp)]; decide), ih (fun w hw => h w (by simp [hw]))]
    rfl

theorem fileVal_encode (f : File) : (fileVal f).encode = f.encode := by
  have e1 : encUsize f.length ≠ [] := by simp [encUsize]
  have e2 : encVec (f.path.map encStr) ≠ [] := by simp [encVec]
  have e3 : (f.path.map EVal.str).map EVal.encode = f.path.map encStr := by simp [EVal.encode, Function.comp_def]
  simp only [fileVal, EVal.encode, encMap, encodeEntries, File.encode, encodeElems_eq_map, e3, encodeDictEntry_of_ne (show b!"length" ≠ [] by decide) e1,
    encodeDictEntry_of_ne (show b!"path" ≠ [] by decide) e2]
  simp [sortKeys, insertKey, keyLe, key1]

theorem fileVal_sem (f : File) : sem (fileVal f) = fileDict f := by
  have e : semElems (f.path.map EVal.str) = f.path.map BVal.str := by
    rw [semElems_eq_map _ (by simp [absent])]
    simp [sem, Function.comp_def]
  simp only [fileVal, sem, semEntries, e, fileDict]
  simp [sortByKey, insertByKey, key1]

theorem infoVal_encode (i : Info) : (infoVal i).encode = i.encode := by
  obtain ⟨files, length, name, pl, pcs⟩ := i
  have e1 (n : Nat) : encUsize n ≠ [] := by simp [encUsize]
  have e2 (l : List Bytes) : encVec l ≠ [] := by simp [encVec]
  have e3 (fs : List File) : (fs.map fileVal).map EVal.encode = fs.map File.encode := by
    simp [fileVal_encode, Function.comp_def]
  have e5 : encStr name ≠ [] := encStr_ne_nil name
  have e6 : encBytes pcs ≠ [] := by simp [encBytes]
  cases files <;> cases length <;>
    simp [infoVal, EVal.encode, encMap, encodeEntries, Info.encode, encodeElems_eq_map, e3, encodeDictEntry, encOpt, e1, e2, e5, e6, sortKeys, insertKey, keyLe, key2, key3, key4, key5, key6, -List.map_map]

theorem infoVal_sem (i : Info) : sem (infoVal i) = infoDict i := by
  obtain ⟨files, length, name, pl, pcs⟩ := i
  have e (fs : List File) : semElems (fs.map fileVal) = fs.map fileDict := by
    rw [semElems_eq_map _ (by intro v hv; obtain ⟨f, -, rfl⟩ := List.mem_map.mp hv; rfl)]
    simp [fileVal_sem, Function.comp_def]
  cases files <;> cases length <;>
    simp [infoVal, infoDict, sem, semEntries, e, sortByKey, insertByKey, key2, key3, key4, key5, key6]

theorem encodableElems_of {l : List EVal} (h : EncodableElems l) : ∀ v ∈ l, absent v = true ∨ Encodable v := by
  induction l with
  | nil => intro v hv; cases hv
  | cons w t ih =>
    intro v hv
    rcases List.mem_cons.mp hv with rfl | hv
    · exact h.1
    · exact ih h.2 v hv

theorem infoVal_encodable (i : Info) (h : Encodable (infoVal i)) : InfoAscii i := by
  have h2 := (encodableEntries_iff _).mp h.2
  constructor
  · exact (h2 (b!"name", .str i.name) (by simp)).2
  · intro fs hfs f hf p hp
    have h3 := (h2 (b!"files", .vec (fs.map fileVal)) (by simp [hfs])).2
    rcases encodableElems_of h3 (fileVal f) (List.mem_map_of_mem hf) with h4 | h4
    · cases h4
    · have h5 := ((encodableEntries_iff _).mp h4.2 (b!"path", .vec (f.path.map .str)) (by simp)).2
      rcases encodableElems_of h5 (.str p) (List.mem_map_of_mem hp) with h6 | h6
      · cases h6
      · exact h6

theorem textOkElems_of {l : List EVal} (h : ∀ v ∈ l, TextOk v) : TextOkElems l := by
  induction l with
  | nil => trivial
  | cons w t ih => exact ⟨h w (by simp), ih fun v hv => h v (by simp [hv])⟩

theorem textOkEntries_of {l : List (Bytes × EVal)} (h : ∀ e ∈ l, validUtf8 e.1 = true ∧ TextOk e.2) : TextOkEntries l := by
  induction l with
  | nil => trivial
  | cons w t ih => exact ⟨(h w (by simp)).1, (h w (by simp)).2, ih fun v hv => h v (by simp [hv])⟩

theorem oneElems_of {l : List EVal} (h : ∀ v ∈ l, OneEntryPerKey v) : OneEntryPerKeyElems l := by
  induction l with
  | nil => trivial
  | cons w t ih => exact ⟨h w (by simp), ih fun v hv => h v (by simp [hv])⟩

theorem oneEntries_of {l : List (Bytes × EVal)} (h : ∀ e ∈ l, OneEntryPerKey e.2) : OneEntryPerKeyEntries l := by
  induction l with
  | nil => trivial
  | cons w t ih => exact ⟨h w (by simp), ih fun v hv => h v (by simp [hv])⟩

theorem infoVal_text (i : Info) (h : InfoText i) : TextOk (infoVal i) := by
  refine textOkEntries_of fun e he => ?_
  simp only [List.mem_append, Option.mem_toList, Option.map_eq_some_iff, List.mem_cons, List.not_mem_nil, or_false] at he
  rcases he with (⟨fs, hfs, rfl⟩ | ⟨n, -, rfl⟩) | rfl | rfl | rfl
  · refine ⟨show validUtf8 b!"files" = true by decide +kernel, textOkElems_of fun v hv => ?_⟩
    obtain ⟨f, hf, rfl⟩ := List.mem_map.mp hv
    refine ⟨show validUtf8 b!"length" = true by decide +kernel, trivial, show validUtf8 b!"path" = true by decide +kernel, textOkElems_of fun w hw => ?_, trivial⟩
    obtain ⟨p, hp, rfl⟩ := List.mem_map.mp hw
    exact h.files fs hfs f hf p hp
  · exact ⟨show validUtf8 b!"length" = true by decide +kernel, trivial⟩
  · exact ⟨show validUtf8 b!"name" = true by decide +kernel, h.name⟩
  · exact ⟨show validUtf8 b!"piece length" = true by decide +kernel, trivial⟩
  · exact ⟨show validUtf8 b!"pieces" = true by decide +kernel, trivial⟩

theorem infoVal_one (i : Info) : OneEntryPerKey (infoVal i) := by
  refine ⟨?_, oneEntries_of fun e he => ?_⟩
  · cases i.files <;> cases i.length <;> simp
  simp only [List.mem_append, Option.mem_toList, Option.map_eq_some_iff, List.mem_cons, List.not_mem_nil, or_false] at he
  rcases he with (⟨fs, hfs, rfl⟩ | ⟨n, -, rfl⟩) | rfl | rfl | rfl
  · refine oneElems_of fun v hv => ?_
    obtain ⟨f, hf, rfl⟩ := List.mem_map.mp hv
    refine ⟨by simp, trivial, oneElems_of fun w hw => ?_, trivial⟩
    obtain ⟨p, hp, rfl⟩ := List.mem_map.mp hw
    trivial
  all_goals trivial

/-! ### Metadata is no larger than the value it was read from -/

/-- An entry may be taken out of a map. -/
theorem at_perm {d : List (Bytes × Metainfo)} {k : Bytes} {v : Metainfo} (h : At d k v) :
    ∃ d1, d.Perm ((k, v) :: d1) ∧ ∀ k', k' ≠ k → ∀ v', At d k' v' → At d1 k' v' := by
  obtain ⟨pre, post, rfl, hp⟩ := h
  refine ⟨pre ++ post, List.perm_middle, ?_⟩
  intro k' hk v' hv
  rw [← mapGet_at] at hv ⊢
  rw [← hv]
  clear hv hp
  induction pre with
  | nil => rw [List.nil_append, List.nil_append, mapGet, if_neg (fun e => hk e.symm)]
  | cons a t ih =>
    obtain ⟨k0, v0⟩ := a
    simp only [List.cons_append, mapGet, ih]

theorem entriesSize_zero {d : List (Bytes × Metainfo)} (h : entriesSize d = 0) : d = [] := by
  cases d with
  | nil => rfl
  | cons a t =>
    obtain ⟨k, v⟩ := a
    have := strSize_pos k
    simp only [entriesSize] at h
    omega

theorem meansElems_strings (l : List Bytes) : StandForElems (l.map .string) (l.map .str) := by
  induction l with
  | nil => exact .nil
  | cons s t ih => exact .cons .str ih

theorem toMetaElems_strings (l : List Bytes) : toMetaElems (l.map .str) = l.map .string := by
  induction l with
  | nil => rfl
  | cons s t ih => simp [toMetaElems, toMeta, ih]

theorem entry_size {m : Metainfo} {f : File} (h : IsEntry m f) :
    docSize (toMeta (fileDict f)) ≤ docSize m ∧ (docSize (toMeta (fileDict f)) = docSize m → StandsFor m (fileDict f)) := by
  obtain ⟨d, rfl, h1, h2, -⟩ := h
  obtain ⟨d1, p1, q1⟩ := at_perm h1
  obtain ⟨d2, p2, -⟩ := at_perm (q1 b!"path" (by decide) _ h2)
  have hs := entriesSize_perm (p1.trans (p2.cons _))
  simp only [fileDict, toMeta, toMetaEntries, toMetaElems_strings, Int.toNat_natCast, docSize, entriesSize, Nat.add_zero] at hs ⊢
  refine ⟨by omega, fun e => ?_⟩
  have h0 := entriesSize_zero (d := d2) (by omega)
  subst h0
  exact .dict (p1.trans (p2.cons _)) (.cons .int (.cons (.list (meansElems_strings f.path)) .nil))

theorem sifted_size {es : List Metainfo} {fs : List File} (h : Sifted es fs) :
    elemsSize (toMetaElems (fs.map fileDict)) ≤ elemsSize es ∧
      (elemsSize (toMetaElems (fs.map fileDict)) = elemsSize es → StandForElems es (fs.map fileDict)) := by
  induction h with
  | nil => exact ⟨Nat.le_refl _, fun _ => .nil⟩
  | @keep m f ms fs hf _ ih =>
    obtain ⟨h1, h2⟩ := entry_size hf
    have h3 : 2 ≤ docSize (toMeta (fileDict f)) := by simp only [fileDict, toMeta, docSize]; omega
    simp only [List.map_cons, toMetaElems, elemsSize]
    exact ⟨by omega, fun e => .cons (h2 (by omega)) (ih.2 (by omega))⟩
  | drop _ _ ih =>
    simp only [elemsSize]
    exact ⟨by omega, fun e => by omega⟩

theorem readsAs_size {m : Metainfo} {i : Info} (h : ReadsAs m i) :
    docSize (toMeta (infoDict i)) ≤ docSize m ∧ (docSize (toMeta (infoDict i)) = docSize m → StandsFor m (infoDict i)) := by
  obtain ⟨d, rfl, h1, h2, h3, -, h5, h6⟩ := h
  obtain ⟨d1, p1, q1⟩ := at_perm h1
  obtain ⟨d2, p2, q2⟩ := at_perm (q1 b!"piece length" (by decide) _ h2)
  obtain ⟨d3, p3, q3⟩ := at_perm (q2 b!"name" (by decide) _ (q1 b!"name" (by decide) _ h3))
  have p : d.Perm ((b!"pieces", .string i.pieces) :: (b!"piece length", .integer i.pieceLength) :: (b!"name", .string i.name) :: d3) :=
    p1.trans ((p2.trans (p3.cons _)).cons _)
  have q : ∀ k, k ≠ b!"pieces" → k ≠ b!"piece length" → k ≠ b!"name" → ∀ v, At d k v → At d3 k v :=
    fun k a b c v hv => q3 k c v (q2 k b v (q1 k a v hv))
  obtain ⟨d4, p4, q4⟩ : ∃ d4, d3.Perm ((i.length.map fun n => (b!"length", Metainfo.integer n)).toList ++ d4) ∧
      ∀ v, At d3 b!"files" v → At d4 b!"files" v := by
    cases hl : i.length with
    | none => exact ⟨d3, .refl _, fun _ => id⟩
    | some n =>
      obtain ⟨d4, p4, q4⟩ := at_perm (q b!"length" (by decide) (by decide) (by decide) _ ((h5 n).mp hl))
      exact ⟨d4, p4, fun v hv => q4 _ (by decide) v hv⟩
  obtain ⟨d5, es, p5, s1, s2⟩ : ∃ d5 es, d4.Perm ((i.files.map fun _ => (b!"files", Metainfo.list es)).toList ++ d5) ∧
      elemsSize (toMetaElems ((i.files.getD []).map fileDict)) ≤ elemsSize es ∧
      (elemsSize (toMetaElems ((i.files.getD []).map fileDict)) = elemsSize es → StandForElems es ((i.files.getD []).map fileDict)) := by
    cases hf : i.files with
    | none => exact ⟨d4, [], .refl _, Nat.le_refl _, fun _ => .nil⟩
    | some fs =>
      obtain ⟨es, ha, hsift⟩ := (h6 fs).mp hf
      obtain ⟨d5, p5, -⟩ := at_perm (q4 _ (q b!"files" (by decide) (by decide) (by decide) _ ha))
      obtain ⟨s1, s2⟩ := sifted_size hsift
      exact ⟨d5, es, p5, s1, s2⟩
  have pp := p.trans ((((p4.trans (p5.append_left _)).cons _).cons _).cons _)
  have hs := entriesSize_perm pp
  have key : entriesSize (toMetaEntries ((i.files.map fun fs => (b!"files", BVal.list (fs.map fileDict))).toList ++
      (i.length.map fun (n : Nat) => (b!"length", BVal.int (n : Int))).toList ++
      [(b!"name", .str i.name), (b!"piece length", .int i.pieceLength), (b!"pieces", .str i.pieces)])) + entriesSize d5 ≤ entriesSize d ∧
    (entriesSize (toMetaEntries ((i.files.map fun fs => (b!"files", BVal.list (fs.map fileDict))).toList ++
      (i.length.map fun (n : Nat) => (b!"length", BVal.int (n : Int))).toList ++
      [(b!"name", .str i.name), (b!"piece length", .int i.pieceLength), (b!"pieces", .str i.pieces)])) = entriesSize d →
      i.files = none ∨ elemsSize (toMetaElems ((i.files.getD []).map fileDict)) = elemsSize es) := by
    rw [hs]
    revert s1
    cases i.files <;> cases i.length <;>
      simp only [Option.map_some, Option.map_none, Option.toList_some, Option.toList_none, List.nil_append, List.cons_append, Option.getD_some, Option.getD_none,
        toMetaEntries, toMeta, Int.toNat_natCast, entriesSize, docSize] <;>
      intro s1 <;>
      exact ⟨by omega, fun e => by first | exact .inl trivial | (right; omega)⟩
  simp only [infoDict, toMeta, docSize]
  refine ⟨by omega, fun e => ?_⟩
  have h0 := entriesSize_zero (d := d5) (by omega)
  subst h0
  have hfs := key.2 (by omega)
  refine .dict (d' := (i.files.map fun _ => (b!"files", Metainfo.list es)).toList ++ (i.length.map fun n => (b!"length", Metainfo.integer n)).toList ++
    [(b!"name", .string i.name), (b!"piece length", .integer i.pieceLength), (b!"pieces", .string i.pieces)]) ?_ ?_
  · refine pp.trans ?_
    rw [List.append_nil]
    have swap (A B : List (Bytes × Metainfo)) (x y z : Bytes × Metainfo) : (x :: y :: z :: (A ++ B)).Perm (B ++ A ++ [z, y, x]) := by
      have h1 : (x :: y :: z :: (A ++ B)).Perm ([z, y, x] ++ (B ++ A)) := by
        have : (x :: y :: z :: (A ++ B)).Perm (z :: y :: x :: (A ++ B)) :=
          (List.Perm.swap y x _).trans (((List.Perm.swap z x _).cons y).trans (List.Perm.swap z y _))
        exact this.trans (List.Perm.append_left [z, y, x] List.perm_append_comm)
      exact h1.trans List.perm_append_comm
    exact swap _ _ _ _ _
  · have hlast : StandForEntries [(b!"name", Metainfo.string i.name), (b!"piece length", .integer i.pieceLength), (b!"pieces", .string i.pieces)]
        [(b!"name", BVal.str i.name), (b!"piece length", .int (i.pieceLength : Int)), (b!"pieces", .str i.pieces)] := .cons .str (.cons .int (.cons .str .nil))
    cases hf : i.files with
    | none =>
      cases i.length with
      | none => exact hlast
      | some n => exact .cons .int hlast
    | some fs =>
      have hm := s2 (by rcases hfs with h | h; · rw [hf] at h; cases h
                        · exact h)
      rw [hf] at hm
      cases i.length with
      | none => exact .cons (.list hm) hlast
      | some n => exact .cons (.list hm) (.cons .int hlast)

/-! ### Metadata -/

/-- Numbers of metadata are never negative. -/
theorem means_infoDict (i : Info) : StandsFor (toMeta (infoDict i)) (infoDict i) := by
  have hf (f : File) : StandsFor (toMeta (fileDict f)) (fileDict f) := by
    refine .dict (.refl _) ?_
    simp only [toMetaEntries, toMeta, toMetaElems_strings, Int.toNat_natCast]
    exact .cons .int (.cons (.list (meansElems_strings f.path)) .nil)
  have hfs (fs : List File) : StandForElems (toMetaElems (fs.map fileDict)) (fs.map fileDict) := by
    induction fs with
    | nil => exact .nil
    | cons f t ih => exact .cons (hf f) ih
  have hlast : StandForEntries [(b!"name", Metainfo.string i.name), (b!"piece length", .integer i.pieceLength), (b!"pieces", .string i.pieces)]
      [(b!"name", BVal.str i.name), (b!"piece length", .int (i.pieceLength : Int)), (b!"pieces", .str i.pieces)] := .cons .str (.cons .int (.cons .str .nil))
  unfold infoDict
  refine .dict (.refl _) ?_
  cases i.files <;> cases i.length <;>
    simp only [Option.map_some, Option.map_none, Option.toList_some, Option.toList_none, List.nil_append, List.cons_append,
      toMetaEntries, toMeta, Int.toNat_natCast]
  · exact hlast
  · exact .cons .int hlast
  · exact .cons (.list (hfs _)) hlast
  · exact .cons (.list (hfs _)) (.cons .int hlast)

/-- Metadata that is read back from its encoding, whatever follows, is in ASCII. -/
theorem ascii_of_readBack {i : Info} (h : Info.fromBytes i.encode = .ok i) : InfoAscii i ∧ Readable (infoDict i) := by
  obtain ⟨v, bs, rest, he, hl, hr⟩ := (C12_accepts_exactly _ _).mp h
  have h1 := lenient_size hl
  obtain ⟨h2, h3⟩ := readsAs_size hr
  have h4 := encode_size (infoVal i) _ (by rw [infoVal_sem]; exact means_infoDict i)
  rw [infoVal_encode] at h4
  have hlen := congrArg List.length he
  rw [List.length_append] at hlen
  have hm := h3 (by omega)
  have ht : InfoText i := by
    obtain ⟨d, -, -, -, -, hn, -, hf⟩ := hr
    refine ⟨(text_iff _).mpr hn, ?_⟩
    intro fs hfs f hfm p hp
    obtain ⟨es, -, hsift⟩ := (hf fs).mp hfs
    clear hf hfs
    induction hsift with
    | nil => cases hfm
    | keep hen _ ih =>
      rcases List.mem_cons.mp hfm with rfl | hfm
      · obtain ⟨-, -, -, -, hx⟩ := hen
        exact (text_iff _).mpr (hx p hp)
      · exact ih hfm
    | drop _ _ ih => exact ih hfm
  have := aligned (infoVal i) (infoVal_text i ht) (infoVal_one i) v bs rest [] hl (by omega) (by rw [infoVal_sem]; exact hm)
    (by rw [infoVal_encode, List.append_nil]; exact he)
  obtain ⟨a1, a2, a3⟩ := this
  rw [infoVal_encode] at a2
  rw [infoVal_sem] at a3
  refine ⟨infoVal_encodable i a1, ?_⟩
  have hbe := isBencode_info i (infoVal_encodable i a1)
  have hdk : DistinctKeys (infoDict i) := by
    have := distinct_of_canonical _ (canonical_sem _ a1)
    rwa [infoVal_sem] at this
  refine (C01_exact _ _ [] hbe hdk).mp ?_
  rw [List.append_nil]
  rw [a3, a2] at hl
  have h0 : 0 < i.encode.length := by rw [← a2]; omega
  exact (C11_accepts_exactly_partial _ _ _ h0).mpr ⟨Nat.le_refl _, by rw [List.take_length]; exact hl⟩

/-- C12, exactly: metadata (of text, with 64-bit numbers, as every `Info` is) survives encoding and decoding just if its text is ASCII and
neither its name nor its hashes nor a part of a path is empty. -/
theorem C12_exact (i : Info) (hf : InfoFits i) (ht : InfoText i) : Info.fromBytes i.encode = .ok i ↔ InfoAscii i ∧ InfoNonempty i := by
  constructor
  · intro h
    obtain ⟨h1, h2⟩ := ascii_of_readBack h
    refine ⟨h1, ?_⟩
    have h3 := (readableEntries_iff _).mp (show ReadableEntries _ from h2)
    refine ⟨⟨?_, ht.name⟩, ?_, ?_⟩
    · exact (h3 (b!"name", .str i.name) (by simp)).2.2.1
    · exact (h3 (b!"pieces", .str i.pieces) (by simp)).2.2.1
    · intro fs hfs f hfm p hp
      have h4 := (h3 (b!"files", .list (fs.map fileDict)) (by simp [hfs])).2.2
      have h5 := (readableElems_iff _).mp (show ReadableElems _ from h4) (fileDict f) (List.mem_map_of_mem hfm)
      have h6 := ((readableEntries_iff _).mp (show ReadableEntries _ from h5) (b!"path", .list (f.path.map .str)) (by simp)).2.2
      have h7 := (readableElems_iff _).mp (show ReadableElems _ from h6) (.str p) (List.mem_map_of_mem hp)
      exact ⟨h7.1, ht.files fs hfs f hfm p hp⟩
  · rintro ⟨h1, h2⟩
    have := C12_info_roundtrip_partial i [] hf h2 h1
    rwa [List.append_nil] at this

/-- Non-vacuity: metadata that does not survive, and metadata that does. -/
example : InfoFits accentInfo ∧ InfoText accentInfo ∧ ¬ InfoAscii accentInfo ∧ InfoFits sampleInfo ∧ InfoAscii sampleInfo ∧ InfoNonempty sampleInfo := by
  refine ⟨⟨by decide, by decide, by decide, ?_, ?_⟩, ⟨by decide +kernel, ?_⟩, fun h => ?_, sampleInfo_fits, sampleInfo_ascii, sampleInfo_nonempty⟩
  · intro n h; simp only [accentInfo, Option.some.injEq] at h; subst h; decide
  · intro fs h; simp [accentInfo] at h
  · intro fs h; simp [accentInfo] at h
  · exact absurd (h.name 0xC3 (by simp [accentInfo])) (by decide)

/-- C13, exactly, for all bytes that are accepted as metadata: what is hashed afterwards is what was received just if that is the document with
only the fields the client knows, in ASCII. So the hash computed is the hash of what was received just in this case, or if SHA-1 gives two
different documents the same hash. -/
theorem C13_exact (sha : Bytes → Bytes) (b : Bytes) (i : Info) (h : Info.fromBytes b = .ok i) :
    (i.encode = b ↔ IsBencode (infoDict i) b ∧ InfoAscii i) ∧
    (i.computeInfoHash sha = sha b ↔ IsBencode (infoDict i) b ∧ InfoAscii i ∨ i.encode ≠ b ∧ sha i.encode = sha b) := by
  have key : i.encode = b ↔ IsBencode (infoDict i) b ∧ InfoAscii i := by
    constructor
    · intro e
      rw [← e] at h
      obtain ⟨h1, -⟩ := ascii_of_readBack h
      exact ⟨e ▸ isBencode_info i h1, h1⟩
    · rintro ⟨h1, h2⟩
      exact isBencode_unique (isBencode_info i h2) h1
  refine ⟨key, ?_⟩
  rw [← key, Info.computeInfoHash]
  by_cases e : i.encode = b
  · simp [e]
  · simp [e]

/-- Non-vacuity: metadata with a further key, and metadata whose name is not ASCII, are accepted. -/
example : Info.fromBytes b!"d6:lengthi1e4:name1:x12:piece lengthi1e6:pieces1:y7:privatei1ee" = .ok ⟨none, some 1, b!"x", 1, b!"y"⟩ ∧
    Info.fromBytes (b!"d6:lengthi1e4:name2:" ++ [0xC3, 0xA9] ++ b!"12:piece lengthi1e6:pieces1:ye") = .ok ⟨none, some 1, [0xC3, 0xA9], 1, b!"y"⟩ ∧
    Info.fromBytes sampleInfo.encode = .ok sampleInfo := by decide +kernel

end RustBit
