/- Lemmas about the metadata model. -/
import Verif.Proofs.Encode
import Verif.Spec.Info

namespace RustBit
open Spec Decoder

/-! ### A value has one document -/

theorem isStr_unique {s a b : Bytes} (h : IsStr s a) (h' : IsStr s b) : a = b := by
  obtain ⟨ds, hd, rfl⟩ := h
  obtain ⟨es, he, rfl⟩ := h'
  rw [isDecimal_unique hd he]

theorem isInt_unique {i : Int} {a b : Bytes} (h : IsInt i a) (h' : IsInt i b) : a = b := by
  generalize hj : i = j at h'
  cases h with
  | nonneg hd =>
    cases h' with
    | nonneg he =>
      have : _ = _ := Int.ofNat.inj hj
      subst this
      exact isDecimal_unique hd he
    | neg hn he => omega
  | neg hn hd =>
    cases h' with
    | nonneg he => omega
    | neg hn' he =>
      rename_i n _ m _
      have : n = m := by omega
      subst this
      rw [isDecimal_unique hd he]

mutual
theorem isBencode_unique {v : BVal} {a b : Bytes} (h : IsBencode v a) (h' : IsBencode v b) : a = b := by
  match h with
  | .int hi => cases h' with | int hj => rw [isInt_unique hi hj]
  | .str hs => cases h' with | str ht => exact isStr_unique hs ht
  | .list hl => cases h' with | list hm => rw [isElems_unique hl hm]
  | .dict hd => cases h' with | dict hm => rw [isEntries_unique hd hm]
theorem isElems_unique {l : List BVal} {a b : Bytes} (h : IsElems l a) (h' : IsElems l b) : a = b := by
  match h with
  | .nil => cases h' with | nil => rfl
  | .cons hv hl => cases h' with | cons hw hm => rw [isBencode_unique hv hw, isElems_unique hl hm]
theorem isEntries_unique {l : List (Bytes × BVal)} {a b : Bytes} (h : IsEntries l a)
    (h' : IsEntries l b) : a = b := by
  match h with
  | .nil => cases h' with | nil => rfl
  | .cons hk hv hl =>
    cases h' with
    | cons hk' hw hm => rw [isStr_unique hk hk', isBencode_unique hv hw, isEntries_unique hl hm]
end

/-! ### The encoding of an `Info` -/

theorem encStr_ne_nil (s : Bytes) : encStr s ≠ [] := by simp [encStr]

theorem encodeDictEntry_of_ne {k v : Bytes} (hk : k ≠ []) (hv : v ≠ []) :
    encodeDictEntry k v = encStr k ++ v := by
  simp [encodeDictEntry, hk, hv]

theorem isEntries_append {l l' : List (Bytes × BVal)} {a b : Bytes} (h : IsEntries l a)
    (h' : IsEntries l' b) : IsEntries (l ++ l') (a ++ b) := by
  induction l generalizing a with
  | nil => cases h; simpa using h'
  | cons e t ih =>
    cases h with
    | cons hk hv hl =>
      have := IsEntries.cons hk hv (ih hl)
      simpa using this

theorem isElems_map {α : Type} (f : α → BVal) (g : α → Bytes) (l : List α)
    (h : ∀ x ∈ l, IsBencode (f x) (g x)) : IsElems (l.map f) (l.map g).flatten := by
  induction l with
  | nil => exact .nil
  | cons x t ih =>
    exact .cons (h x (by simp)) (ih (fun y hy => h y (by simp [hy])))

theorem ascii_of_lit {k : Bytes} (h : k.all (fun b => b < 0x80) = true) : Ascii k := by
  intro b hb
  have := List.all_eq_true.mp h b hb
  simpa using this

theorem isEntries_one {k : Bytes} {v : BVal} {b : Bytes} (hk : Ascii k) (hne : k ≠ [])
    (hv : IsBencode v b) : IsEntries [(k, v)] (encodeDictEntry k b) := by
  have hb : b ≠ [] := by
    obtain ⟨x, t, rfl, -⟩ := isBencode_head hv
    simp
  rw [encodeDictEntry_of_ne hne hb]
  have := IsEntries.cons (isStr_encStr k hk) hv .nil
  simpa using this

theorem isBencode_file (f : File) (h : ∀ p ∈ f.path, Ascii p) :
    IsBencode (fileDict f) f.encode := by
  have hp : IsElems (f.path.map BVal.str) (f.path.map encStr).flatten :=
    isElems_map _ _ _ (fun p hp => .str (isStr_encStr p (h p hp)))
  have e1 := isEntries_one (k := b!"length") (ascii_of_lit rfl) (by simp)
    (isBencode_encUsize f.length)
  have e2 := isEntries_one (k := b!"path") (ascii_of_lit rfl) (by simp) (.list hp)
  have := IsBencode.dict (isEntries_append e1 e2)
  simpa [fileDict, File.encode, encVec] using this

theorem isBencode_info (i : Info) (h : InfoAscii i) : IsBencode (infoDict i) i.encode := by
  have e1 : IsEntries (i.files.map fun fs => (b!"files", BVal.list (fs.map fileDict))).toList
      (encodeDictEntry b!"files" (encOpt (i.files.map (fun fs => encVec (fs.map File.encode))))) := by
    cases hf : i.files with
    | none => exact .nil
    | some fs =>
      refine isEntries_one (ascii_of_lit rfl) (by simp) (.list ?_)
      exact isElems_map _ _ _ (fun f hfm => isBencode_file f (h.files fs hf f hfm))
  have e2 : IsEntries (i.length.map fun (n : Nat) => (b!"length", BVal.int (n : Int))).toList
      (encodeDictEntry b!"length" (encOpt (i.length.map encUsize))) := by
    cases i.length with
    | none => exact .nil
    | some n => exact isEntries_one (ascii_of_lit rfl) (by simp) (isBencode_encUsize n)
  have e3 := isEntries_one (k := b!"name") (ascii_of_lit rfl) (by simp) (.str (isStr_encStr i.name h.name))
  have e4 := isEntries_one (k := b!"piece length") (ascii_of_lit rfl) (by simp)
    (isBencode_encUsize i.pieceLength)
  have e5 := isEntries_one (k := b!"pieces") (ascii_of_lit rfl) (by simp) (.str (isStr_encBytes i.pieces))
  have := IsBencode.dict (isEntries_append (isEntries_append (isEntries_append e1 e2) e3)
    (isEntries_append e4 e5))
  simpa [infoDict, Info.encode] using this

/-! ### Reading an info dictionary -/

theorem toMetaElems_eq_map (l : List BVal) : toMetaElems l = l.map toMeta := by
  induction l with
  | nil => rfl
  | cons v t ih => simp [toMetaElems, ih]

theorem readableElems_iff (l : List BVal) : ReadableElems l ↔ ∀ v ∈ l, Readable v := by
  induction l with
  | nil => simp [ReadableElems]
  | cons v t ih => simp [ReadableElems, ih]

theorem readableEntries_iff (l : List (Bytes × BVal)) :
    ReadableEntries l ↔ ∀ e ∈ l, validUtf8 e.1 = true ∧ e.1.length < 2 ^ 64 ∧ Readable e.2 := by
  induction l with
  | nil => simp [ReadableEntries]
  | cons v t ih => obtain ⟨k, v⟩ := v; simp [ReadableEntries, ih, and_assoc]

theorem distinctElems_iff (l : List BVal) : DistinctKeysElems l ↔ ∀ v ∈ l, DistinctKeys v := by
  induction l with
  | nil => simp [DistinctKeysElems]
  | cons v t ih => simp [DistinctKeysElems, ih]

theorem distinctEntries_iff (l : List (Bytes × BVal)) :
    DistinctKeysEntries l ↔ ∀ e ∈ l, DistinctKeys e.2 := by
  induction l with
  | nil => simp [DistinctKeysEntries]
  | cons v t ih => obtain ⟨k, v⟩ := v; simp [DistinctKeysEntries, ih]

theorem pathComponents_strings (l : List Bytes) (h : ∀ p ∈ l, validUtf8 p = true) :
    pathComponents (l.map Metainfo.string) = .ok l := by
  induction l with
  | nil => rfl
  | cons p t ih =>
    simp only [List.map_cons, pathComponents, Metainfo.getStringContent, h p (by simp), if_true,
      Res.bind_ok, ih (fun q hq => h q (by simp [hq]))]

theorem fromMetainfo_file (f : File) (h : ∀ p ∈ f.path, validUtf8 p = true) :
    File.fromMetainfo (toMeta (fileDict f)) = .ok f := by
  have e : toMeta (fileDict f) =
      .dictionary [(b!"length", .integer f.length), (b!"path", .list (f.path.map .string))] := by
    simp [fileDict, toMeta, toMetaEntries, toMetaElems_eq_map, Function.comp_def]
  rw [e]
  simp [File.fromMetainfo, Metainfo.getIntegerFromDict, Metainfo.getListFromDict,
    Metainfo.getDictContent, mapGet, Metainfo.getIntegerContent, Metainfo.getListContent,
    pathComponents_strings _ h]

theorem keepOk_files (fs : List File) (h : ∀ f ∈ fs, ∀ p ∈ f.path, validUtf8 p = true) :
    keepOk ((fs.map (fun f => toMeta (fileDict f))).map File.fromMetainfo) = fs := by
  induction fs with
  | nil => rfl
  | cons f t ih =>
    simp only [List.map_cons, fromMetainfo_file f (h f (by simp)), keepOk,
      ih (fun g hg => h g (by simp [hg]))]

theorem readable_fileDict (f : File) (hl : f.length < 2 ^ 64)
    (h : ∀ p ∈ f.path, p ≠ [] ∧ p.length < 2 ^ 64) : Readable (fileDict f) := by
  simp only [fileDict, Readable, readableEntries_iff]
  intro e he
  simp only [List.mem_cons, List.not_mem_nil, or_false] at he
  rcases he with rfl | rfl
  · exact ⟨rfl, by simp, by simp only [Readable]; omega⟩
  · refine ⟨rfl, by simp, ?_⟩
    simp only [Readable, readableElems_iff, List.mem_map]
    rintro v ⟨p, hp, rfl⟩
    exact h p hp

theorem distinct_fileDict (f : File) : DistinctKeys (fileDict f) := by
  simp only [fileDict, DistinctKeys, distinctEntries_iff]
  refine ⟨by simp, ?_⟩
  intro e he
  simp only [List.mem_cons, List.not_mem_nil, or_false] at he
  rcases he with rfl | rfl
  · trivial
  · simp only [DistinctKeys, distinctElems_iff, List.mem_map]
    rintro v ⟨p, hp, rfl⟩
    trivial

theorem readable_infoDict (i : Info) (h1 : InfoFits i) (h2 : InfoNonempty i) :
    Readable (infoDict i) := by
  simp only [infoDict, Readable, readableEntries_iff]
  intro e he
  simp only [List.mem_append, Option.mem_toList, Option.map_eq_some_iff, List.mem_cons,
    List.not_mem_nil, or_false] at he
  rcases he with (⟨fs, hf, rfl⟩ | ⟨n, hn, rfl⟩) | rfl | rfl | rfl
  · refine ⟨rfl, by simp, ?_⟩
    simp only [Readable, readableElems_iff, List.mem_map]
    rintro v ⟨f, hfm, rfl⟩
    have := h1.files fs hf f hfm
    exact readable_fileDict f this.1 (fun p hp => ⟨(h2.files fs hf f hfm p hp).1, this.2 p hp⟩)
  · have := h1.length n hn
    exact ⟨rfl, by simp, by simp only [Readable]; omega⟩
  · exact ⟨rfl, by simp, h2.name.1, h1.name⟩
  · have := h1.pieceLength
    exact ⟨rfl, by simp, by simp only [Readable]; omega⟩
  · exact ⟨rfl, by simp, h2.pieces, h1.pieces⟩

theorem distinct_infoDict (i : Info) : DistinctKeys (infoDict i) := by
  simp only [infoDict, DistinctKeys, distinctEntries_iff]
  constructor
  · cases i.files <;> cases i.length <;> simp
  · intro e he
    simp only [List.mem_append, Option.mem_toList, Option.map_eq_some_iff, List.mem_cons,
      List.not_mem_nil, or_false] at he
    rcases he with (⟨fs, hf, rfl⟩ | ⟨n, hn, rfl⟩) | rfl | rfl | rfl
    · simp only [DistinctKeys, distinctElems_iff, List.mem_map]
      rintro v ⟨f, hfm, rfl⟩
      exact distinct_fileDict f
    all_goals trivial

theorem fromMetainfo_infoDict (i : Info) (h : InfoNonempty i) :
    Info.fromMetainfo (toMeta (infoDict i)) = .ok i := by
  obtain ⟨files, length, name, pl, pieces⟩ := i
  have hn := h.name.2
  have hf := h.files
  simp only at hn hf
  cases files with
  | none =>
    cases length <;>
    simp [infoDict, toMeta, toMetaEntries, Info.fromMetainfo, Metainfo.getBytesFromDict,
      Metainfo.getIntegerFromDict, Metainfo.getStringFromDict, Metainfo.getListFromDict,
      Metainfo.getDictContent, mapGet, Metainfo.getBytesContent, Metainfo.getIntegerContent,
      Metainfo.getStringContent, Metainfo.getListContent, hn, Res.toOption]
  | some fs =>
    have hk := keepOk_files fs (fun f hfm p hp => (hf fs rfl f hfm p hp).2)
    cases length <;>
    simp [infoDict, toMeta, toMetaEntries, Info.fromMetainfo, Metainfo.getBytesFromDict,
      Metainfo.getIntegerFromDict, Metainfo.getStringFromDict, Metainfo.getListFromDict,
      Metainfo.getDictContent, mapGet, Metainfo.getBytesContent, Metainfo.getIntegerContent,
      Metainfo.getStringContent, Metainfo.getListContent, hn, Res.toOption, toMetaElems_eq_map,
      Function.comp_def] <;>
    simpa [Function.comp_def] using hk

theorem fromBytes_doc (i : Info) (b rest : Bytes) (hb : IsBencode (infoDict i) b)
    (h1 : InfoFits i) (h2 : InfoNonempty i) : Info.fromBytes (b ++ rest) = .ok i := by
  have := decodeAt_doc hb (readable_infoDict i h1 h2) (c := b ++ rest) (p := 0) (rest := rest) (by simp)
  rw [meaning_eq_toMeta _ (distinct_infoDict i)] at this
  rw [Info.fromBytes, decode, this]
  simp only [Res.mapErr_ok, Res.bind_ok]
  exact fromMetainfo_infoDict i h2

/-! ### Sums -/

theorem usum_aux {ε : Type} (m : Build) (l : List Nat) : ∀ a : Nat, a + l.sum < 2 ^ 64 →
    l.foldl (fun acc x => acc >>= fun a => uadd m a x) (.ok a : Res ε Nat) = .ok (a + l.sum) := by
  induction l with
  | nil => intro a h; simp
  | cons x t ih =>
    intro a h
    simp only [List.sum_cons] at h ⊢
    simp only [List.foldl_cons, Res.bind_ok]
    rw [show (uadd m a x : Res ε Nat) = .ok (a + x) from if_pos (by omega), ih _ (by omega)]
    congr 1; omega

theorem usum_of_lt {ε : Type} (m : Build) (l : List Nat) (h : l.sum < 2 ^ 64) :
    (usum m l : Res ε Nat) = .ok l.sum := by
  have := usum_aux (ε := ε) m l 0 (by omega)
  simpa [usum] using this

theorem foldl_panic {ε : Type} (m : Build) (l : List Nat) :
    l.foldl (fun acc x => acc >>= fun a => uadd m a x) (.panic : Res ε Nat) = .panic := by
  induction l with
  | nil => rfl
  | cons x t ih => simpa using ih

theorem usum_debug_panic_aux {ε : Type} (l : List Nat) : ∀ a : Nat, a < 2 ^ 64 → 2 ^ 64 ≤ a + l.sum →
    l.foldl (fun acc x => acc >>= fun a => uadd .debug a x) (.ok a : Res ε Nat) = .panic := by
  induction l with
  | nil => intro a ha h; simp at h; omega
  | cons x t ih =>
    intro a ha h
    simp only [List.sum_cons] at h
    simp only [List.foldl_cons, Res.bind_ok]
    by_cases hx : a + x < 2 ^ 64
    · rw [show (uadd .debug a x : Res ε Nat) = .ok (a + x) from if_pos hx, ih _ hx (by omega)]
    · rw [show (uadd .debug a x : Res ε Nat) = .panic from if_neg hx]
      exact foldl_panic _ _

theorem usum_debug {ε : Type} (l : List Nat) (h : 2 ^ 64 ≤ l.sum) :
    (usum .debug l : Res ε Nat) = .panic :=
  usum_debug_panic_aux l 0 (by decide) (by omega)

theorem usum_release_aux {ε : Type} (l : List Nat) : ∀ a : Nat, a < 2 ^ 64 →
    l.foldl (fun acc x => acc >>= fun a => uadd .release a x) (.ok a : Res ε Nat) = .ok ((a + l.sum) % 2 ^ 64) := by
  induction l with
  | nil => intro a ha; simp [Nat.mod_eq_of_lt ha]
  | cons x t ih =>
    intro a _
    have hu : (uadd .release a x : Res ε Nat) = .ok ((a + x) % 2 ^ 64) := by
      unfold uadd
      by_cases h : a + x < 2 ^ 64
      · rw [if_pos h, Nat.mod_eq_of_lt h]
      · rw [if_neg h]
    simp only [List.foldl_cons, Res.bind_ok, List.sum_cons]
    rw [hu, ih _ (Nat.mod_lt _ (by decide)), Nat.mod_add_mod, Nat.add_assoc]

theorem usum_release {ε : Type} (l : List Nat) : (usum .release l : Res ε Nat) = .ok (l.sum % 2 ^ 64) := by
  have := usum_release_aux (ε := ε) l 0 (by decide)
  rw [Nat.zero_add] at this
  exact this

theorem chunksExact_getElem? (n : Nat) (l : Bytes) (i : Nat) :
    (chunksExact n l)[i]? = if i < l.length / n then some ((l.drop (i * n)).take n) else none := by
  unfold chunksExact
  rw [List.getElem?_map]
  split
  · rename_i h; rw [List.getElem?_range h]; rfl
  · rename_i h
    rw [List.getElem?_eq_none (by simp; omega)]; rfl

end RustBit
