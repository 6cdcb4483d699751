/-
Lemmas about the metadata cache.
-/
import Verif.Proofs.Json
import Verif.Proofs.Writer
import Verif.Spec.Cache

namespace RustBit
open Spec Json

/-! ### The document is valid UTF-8 -/

theorem escapeByte_high {b : UInt8} : ¬ b < 0x80 → escapeByte b = [b] :=
  byte_forall (p := fun b => ¬ b < 0x80 → escapeByte b = [b]) (by decide +kernel) b

theorem escapeByte_ascii {b : UInt8} : b < 0x80 → ∀ c ∈ escapeByte b, c < 0x80 :=
  byte_forall (p := fun b => b < 0x80 → ∀ c ∈ escapeByte b, c < 0x80) (by decide +kernel) b

theorem validUtf8_ascii_append (s t : Bytes) (h : ∀ b ∈ s, b < 0x80) : validUtf8 (s ++ t) = validUtf8 t := by
  induction s with
  | nil => rfl
  | cons b s ih =>
    rw [List.cons_append, validUtf8.eq_def]
    simp only []
    rw [if_pos (h b (by simp)), ih (fun c hc => h c (List.mem_cons_of_mem _ hc))]

theorem isCont_high {b : UInt8} : isCont b = true → ¬ b < 0x80 :=
  byte_forall (p := fun b => isCont b = true → ¬ b < 0x80) (by decide +kernel) b

theorem lead3_high {b c : UInt8} (h : utf8Lead3 b c = true) : ¬ c < 0x80 := by
  intro hc
  have hc' : c.toNat < 128 := hc
  simp only [utf8Lead3, isCont, Bool.or_eq_true, Bool.and_eq_true, decide_eq_true_eq, UInt8.le_iff_toNat_le] at h
  have e1 : (0xA0 : UInt8).toNat = 160 := rfl
  have e2 : (0x80 : UInt8).toNat = 128 := rfl
  omega

theorem lead4_high {b c : UInt8} (h : utf8Lead4 b c = true) : ¬ c < 0x80 := by
  intro hc
  have hc' : c.toNat < 128 := hc
  simp only [utf8Lead4, isCont, Bool.or_eq_true, Bool.and_eq_true, decide_eq_true_eq, UInt8.le_iff_toNat_le] at h
  have e1 : (0x90 : UInt8).toNat = 144 := rfl
  have e2 : (0x80 : UInt8).toNat = 128 := rfl
  omega

theorem validUtf8_escape (t : Bytes) : ∀ (n : Nat) (s : Bytes), s.length ≤ n → validUtf8 s = true →
    validUtf8 (s.flatMap escapeByte ++ t) = validUtf8 t := by
  intro n
  induction n with
  | zero => intro s hs _; cases s with | nil => rfl | cons => simp at hs
  | succ n ih =>
    intro s hs h
    cases s with
    | nil => rfl
    | cons b s =>
      simp only [List.length_cons] at hs
      rw [validUtf8.eq_def] at h
      simp only [] at h
      rw [List.flatMap_cons, List.append_assoc]
      split at h
      · rename_i hb
        rw [validUtf8_ascii_append _ _ (escapeByte_ascii hb), ih s (by omega) h]
      · rename_i hb
        rw [escapeByte_high hb, List.singleton_append, validUtf8.eq_def]
        simp only [if_neg hb]
        cases s with
        | nil => cases h
        | cons c s =>
          simp only [List.length_cons] at hs
          simp only [] at h
          rw [List.flatMap_cons, List.append_assoc]
          split at h
          · rename_i h2
            rw [Bool.and_eq_true] at h
            rw [escapeByte_high (isCont_high h.1), List.singleton_append]
            simp only [h2, if_true, h.1, Bool.true_and, ih s (by omega) h.2]
          · rename_i h2
            cases s with
            | nil => cases h
            | cons d s =>
              simp only [List.length_cons] at hs
              simp only [] at h
              rw [List.flatMap_cons, List.append_assoc]
              split at h
              · rename_i h3
                rw [Bool.and_eq_true] at h
                rw [escapeByte_high (lead3_high h3), escapeByte_high (isCont_high h.1), List.singleton_append, List.singleton_append]
                simp only [h2, h3, if_true, if_false, h.1, Bool.true_and, ih s (by omega) h.2, Bool.false_eq_true]
              · rename_i h3
                cases s with
                | nil => cases h
                | cons e s =>
                  simp only [List.length_cons] at hs
                  simp only [Bool.and_eq_true] at h
                  rw [List.flatMap_cons, List.append_assoc]
                  rw [escapeByte_high (lead4_high h.1.1.1), escapeByte_high (isCont_high h.1.1.2), escapeByte_high (isCont_high h.1.2),
                    List.singleton_append, List.singleton_append, List.singleton_append]
                  simp only [h2, h3, if_false, h.1.1.1, h.1.1.2, h.1.2, Bool.true_and, ih s (by omega) h.2, Bool.false_eq_true]

theorem validUtf8_printStr {s : Bytes} (t : Bytes) (h : validUtf8 s = true) : validUtf8 (printStr s ++ t) = validUtf8 t := by
  have e : printStr s ++ t = [34] ++ (s.flatMap escapeByte ++ ([34] ++ t)) := by rw [printStr]; simp
  rw [e, validUtf8_ascii_append _ _ (by simp), validUtf8_escape _ _ s (Nat.le_refl _) h, validUtf8_ascii_append _ _ (by simp)]

mutual
/-- All texts in the document are valid UTF-8. -/
def Json.Utf8 : Json → Prop
  | .str s => validUtf8 (s.getD []) = true
  | .arr l => Utf8List l
  | .obj m => Utf8Members m
  | _ => True
def Utf8List : List Json → Prop
  | [] => True
  | v :: t => v.Utf8 ∧ Utf8List t
def Utf8Members : List (Option Bytes × Json) → Prop
  | [] => True
  | (k, v) :: t => validUtf8 (k.getD []) = true ∧ v.Utf8 ∧ Utf8Members t
end

theorem validUtf8_cons_ascii {b : UInt8} (t : Bytes) (h : b < 0x80) : validUtf8 (b :: t) = validUtf8 t :=
  validUtf8_ascii_append [b] t (by simpa using h)

theorem digit_ascii {d : UInt8} : isDigit d = true → d < 0x80 :=
  byte_forall (p := fun d => isDigit d = true → d < 0x80) (by decide +kernel) d

mutual
theorem validUtf8_print : ∀ (j : Json), j.Utf8 → ∀ t, validUtf8 (j.print ++ t) = validUtf8 t
  | .null, _, t => validUtf8_ascii_append _ t (by decide)
  | .bool true, _, t => validUtf8_ascii_append _ t (by decide)
  | .bool false, _, t => validUtf8_ascii_append _ t (by decide)
  | .num n, _, t => by
    rw [Json.print]
    exact validUtf8_ascii_append _ t (fun d hd => digit_ascii (decimal_digit _ d hd))
  | .str s, h, t => by
    rw [Json.Utf8] at h
    rw [Json.print, validUtf8_printStr t h]
  | .arr l, h, t => by
    rw [Json.Utf8] at h
    rw [Json.print, List.cons_append, validUtf8_cons_ascii _ (by decide), validUtf8_printElems l h t]
  | .obj m, h, t => by
    rw [Json.Utf8] at h
    rw [Json.print, List.cons_append, validUtf8_cons_ascii _ (by decide), validUtf8_printMembers m h t]
theorem validUtf8_printElems : ∀ (l : List Json), Utf8List l → ∀ t, validUtf8 (printElems l ++ t) = validUtf8 t
  | [], _, t => validUtf8_ascii_append _ t (by decide)
  | [v], h, t => by
    rw [Utf8List] at h
    rw [printElems, List.append_assoc, validUtf8_print v h.1, validUtf8_ascii_append _ _ (by decide)]
  | v :: w :: u, h, t => by
    rw [Utf8List] at h
    rw [printElems_cons v (w :: u) (by simp), validUtf8_print v h.1, validUtf8_cons_ascii _ (by decide),
      validUtf8_printElems (w :: u) h.2]
theorem validUtf8_printMembers : ∀ (m : List (Option Bytes × Json)), Utf8Members m → ∀ t,
    validUtf8 (printMembers m ++ t) = validUtf8 t
  | [], _, t => validUtf8_ascii_append _ t (by decide)
  | [(k, v)], h, t => by
    rw [Utf8Members] at h
    have e : printMembers [(k, v)] ++ t = printStr (k.getD []) ++ ([58] ++ (v.print ++ ([125] ++ t))) := by
      rw [printMembers]; simp
    rw [e, validUtf8_printStr _ h.1, validUtf8_ascii_append _ _ (by decide), validUtf8_print v h.2.1,
      validUtf8_ascii_append _ _ (by decide)]
  | (k, v) :: w :: u, h, t => by
    rw [Utf8Members] at h
    have e : printMembers ((k, v) :: w :: u) ++ t =
        printStr (k.getD []) ++ ([58] ++ (v.print ++ ([44] ++ (printMembers (w :: u) ++ t)))) := by
      rw [printMembers]; simp; simp
    rw [e, validUtf8_printStr _ h.1, validUtf8_ascii_append _ _ (by decide), validUtf8_print v h.2.1,
      validUtf8_ascii_append _ _ (by decide), validUtf8_printMembers (w :: u) h.2.2]
end

theorem utf8List_map {α : Type} (l : List α) (k : α → Json) (h : ∀ a ∈ l, (k a).Utf8) : Utf8List (l.map k) := by
  induction l with
  | nil => simp [Utf8List]
  | cons a t ih =>
    rw [List.map_cons, Utf8List]
    exact ⟨h a (by simp), ih (fun b hb => h b (List.mem_cons_of_mem _ hb))⟩

theorem File.utf8 {f : File} (h : ∀ p ∈ f.path, validUtf8 p = true) : f.toJson.Utf8 := by
  simp only [File.toJson, Json.Utf8, Utf8Members, and_true]
  exact ⟨by decide, utf8List_map _ _ (fun p hp => by rw [Json.Utf8]; exact h p hp), by decide⟩

theorem Info.utf8 {i : Info} (h : Typed i) : i.toJson.Utf8 := by
  simp only [Info.toJson, Json.Utf8, Utf8Members, and_true]
  refine ⟨by decide, ?_, by decide, ?_, by decide, h.name, by decide, by decide, by decide, utf8List_map _ _ (fun b _ => by simp [Json.Utf8])⟩
  · cases hf : i.files with
    | none => simp [optTo, Json.Utf8]
    | some fs =>
      simp only [optTo, Json.Utf8]
      exact utf8List_map _ _ (fun f hm => File.utf8 (h.files fs hf f hm).2)
  · cases hf : i.length <;> simp [optTo, Json.Utf8]

theorem Info.json_utf8 {i : Info} (h : Typed i) : validUtf8 i.json = true := by
  have := validUtf8_print i.toJson (Info.utf8 h) []
  rw [List.append_nil] at this
  exact this

theorem typed_sized {i : Info} (h : Typed i) : i.Sized :=
  ⟨fun fs hf f hm => (h.files fs hf f hm).1, h.length, h.pieceLength⟩

/-! ### Reading what was written -/

theorem walk_set_file {fs : FS} {x : Loc} {c : Bytes} (hx : fs x ≠ some .dir) : ∀ (comps : List Bytes) (l l' : Loc),
    fs.walk l comps = .ok l' → (fs.set x (.file c)).walk l comps = .ok l' := by
  intro comps
  induction comps with
  | nil => intro l l' h; exact h
  | cons n cs ih =>
    intro l l' h
    rw [FS.walk] at h ⊢
    split at h
    · rename_i hn; rw [if_pos hn]; exact ih _ _ h
    · rename_i hn
      rw [if_neg hn]
      split at h
      · rename_i hd
        have : l ++ [n] ≠ x := by rintro rfl; exact hx hd
        rw [FS.set, if_neg this, hd]
        exact ih _ _ h
      · cases h
      · cases h

theorem set_set (fs : FS) (l : Loc) (a b : Node) : (fs.set l a).set l b = fs.set l b := by
  funext x; unfold FS.set; split <;> rfl

/-- What opening a file for writing means for reading it later. -/
theorem openCreate_read {fs fs' : FS} {cwd l : Loc} {path : Bytes} (h : fs.openCreate cwd (PathBuf.parse path) = .ok (l, fs'))
    (c : Bytes) : (fs'.set l (.file c)).readToString cwd path = if validUtf8 c then some c else none := by
  unfold FS.openCreate at h
  unfold FS.readToString
  simp only []
  split at h
  · cases h
  · rename_i hb
    rw [if_neg hb]
    split at h
    · cases h
    · rename_i name hname
      cases hw : fs.walk ((PathBuf.parse path).base cwd) (PathBuf.parse path).comps.dropLast with
      | ok d =>
        rw [hw] at h
        simp only [Res.bind_ok] at h
        split at h
        · cases h
        · rename_i hdd
          have key : fs (d ++ [name]) ≠ some .dir ∧ d ++ [name] = l ∧ fs'.set l (.file c) = fs.set l (.file c) := by
            split at h
            · cases h
            · rename_i hx
              simp only [Res.ok.injEq, Prod.mk.injEq] at h
              exact ⟨by rw [hx]; simp, h.1, by rw [h.2]⟩
            · rename_i hx
              simp only [Res.ok.injEq, Prod.mk.injEq] at h
              refine ⟨by rw [hx]; simp, h.1, ?_⟩
              rw [← h.2, h.1, set_set]
          obtain ⟨k1, rfl, k3⟩ := key
          rw [k3, walk_set_file k1 _ _ _ hw, hname]
          simp only [if_neg hdd, FS.set, if_true]
      | err e => rw [hw] at h; cases h
      | panic => rw [hw] at h; cases h
      | hang => rw [hw] at h; cases h

/-- Reading the cache after a `save` that got as far as `room` bytes. -/
theorem fromFile_save {i : Info} (hi : Typed i) {cwd : Loc} {fs fs' : FS} {path : Bytes} {room : Nat} {r : Res InfoError Unit}
    (hs : i.save cwd fs path room = (r, fs')) (hr : r ≠ .panic) :
    Info.fromFile cwd fs' path =
      if i.json.length ≤ room then .ok i
      else if validUtf8 (i.json.take room) then .panic else .err (.noInfoFile path) := by
  unfold Info.save at hs
  split at hs
  · rename_i l fs1 ho
    simp only [Prod.mk.injEq] at hs
    rw [← hs.2, Info.fromFile, openCreate_read ho]
    by_cases hk : i.json.length ≤ room
    · rw [if_pos hk, List.take_of_length_le hk, Info.json_utf8 hi]
      simp only [if_true]
      rw [Info.fromJson_json (typed_sized hi)]
    · rw [if_neg hk]
      by_cases hv : validUtf8 (i.json.take room) = true
      · rw [if_pos hv, if_pos hv]
        simp only []
        rw [Info.fromJson_cut (typed_sized hi) (by omega)]
      · rw [if_neg hv, if_neg hv]
  · simp only [Prod.mk.injEq] at hs
    exact absurd hs.1.symm hr

/-! ### `collect_info` -/

theorem downloads_comps : (PathBuf.parse b!"./downloads") = ⟨false, [b!"downloads"], false⟩ := by decide

theorem segments_no_slash {s : Bytes} (h : c!"/" ∉ s) : segments s = [s] := by
  induction s with
  | nil => rfl
  | cons b t ih =>
    rw [List.mem_cons, not_or] at h
    rw [segments, if_neg (fun e => h.1 e.symm), ih h.2]

/-- Where the cache file is, if its name is an ordinary one. -/
theorem cachePath_parse {h : Bytes} (h1 : c!"/" ∉ percentEncode h) (h2 : percentEncode h ≠ []) (h3 : percentEncode h ≠ b!".") :
    PathBuf.parse (cachePath h) = ⟨false, [b!"downloads", percentEncode h], false⟩ := by
  have e : segments (cachePath h) = b!"." :: b!"downloads" :: segments (percentEncode h) := by rfl
  have hd : (cachePath h).head? = some 46 := rfl
  unfold PathBuf.parse
  rw [e, segments_no_slash h1, hd]
  congr 1
  · rw [List.filter_cons_of_neg (by decide), List.filter_cons_of_pos (by decide), List.filter_cons_of_pos (by simp [h2, h3])]
    rfl
  · simp [h2, h3]

theorem createDirAll_exists {fs : FS} {cwd : Loc} (h : fs (cwd ++ [b!"downloads"]) = some .dir) :
    fs.createDirAll cwd [b!"downloads"] = (.ok (), fs) := by
  have hm : fs.mkdir cwd [b!"downloads"] = .err .other := by
    have hn : hasNul [b!"downloads"] = false := by decide
    unfold FS.mkdir
    rw [hn]
    simp only [Bool.false_eq_true, if_false, List.getLast?_singleton, List.dropLast_singleton, FS.walk, Res.bind_ok]
    rw [if_neg (by decide), h]
  have hi : fs.isDir cwd [b!"downloads"] = true := by
    have hn : hasNul [b!"downloads"] = false := by decide
    unfold FS.isDir
    rw [hn, FS.walk, if_neg (by decide), h]
    rfl
  unfold FS.createDirAll
  rw [List.reverse_singleton, FS.createDirAllRev, List.reverse_singleton, hm]
  simp only []
  rw [hi]
  rfl

theorem collectInfo_exists {ε : Type} {m : Build} {cwd : Loc} {fs : FS} {dial : Dial} {f : Nat} {peerId infoHash : Bytes} {room : Nat}
    (h : fs (cwd ++ [b!"downloads"]) = some .dir) :
    (collectInfo m cwd fs dial f peerId infoHash room : Res ε (Option Info) × FS) =
    match Info.fromFile cwd fs (cachePath infoHash) with
    | .ok i => (.ok (some i), fs)
    | .err _ =>
      match getInfo m dial f peerId infoHash with
      | .ok i => match i.save cwd fs (cachePath infoHash) room with
        | (.ok (), fs2) => (.ok (some i), fs2)
        | (.err _, fs2) => (.ok (some i), fs2)
        | (.panic, fs2) => (.panic, fs2)
        | (.hang, fs2) => (.hang, fs2)
      | .err _ => (.ok none, fs)
      | .panic => (.panic, fs)
      | .hang => (.hang, fs)
    | .panic => (.panic, fs)
    | .hang => (.hang, fs) := by
  unfold collectInfo
  rw [downloads_comps]
  have e : (PathBuf.mk false [b!"downloads"] false).base cwd = cwd := rfl
  rw [e, createDirAll_exists h]
  rfl

end RustBit
