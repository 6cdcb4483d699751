/-
Properties C12, C17: exactly which bytes are which metadata.
-/
import Verif.Props.Info
import Verif.Props.Text
import Verif.Spec.InfoRel

namespace RustBit
open Spec

theorem mapGet_at (d : List (Bytes × Metainfo)) (k : Bytes) (v : Metainfo) : mapGet d k = some v ↔ At d k v := by
  unfold At
  constructor
  · intro h
    induction d with
    | nil => cases h
    | cons e t ih =>
      obtain ⟨k', v'⟩ := e
      simp only [mapGet] at h
      split at h
      · rename_i hk
        cases h
        subst hk
        exact ⟨[], t, rfl, by simp⟩
      · rename_i hk
        obtain ⟨pre, post, rfl, hp⟩ := ih h
        refine ⟨(k', v') :: pre, post, rfl, ?_⟩
        intro e he
        rcases List.mem_cons.mp he with rfl | he
        · exact hk
        · exact hp e he
  · rintro ⟨pre, post, rfl, hp⟩
    induction pre with
    | nil => simp [mapGet]
    | cons e t ih =>
      obtain ⟨k', v'⟩ := e
      simp only [List.cons_append, mapGet]
      rw [if_neg (hp (k', v') (by simp))]
      exact ih (fun e he => hp e (List.mem_cons_of_mem _ he))

theorem isEntry_iff (m : Metainfo) (f : File) : File.fromMetainfo m = .ok f ↔ IsEntry m f := by
  rw [fileFromMetainfo_iff]
  unfold ValidFileEntry IsEntry
  constructor
  · rintro ⟨d, ps, rfl, h1, h2, rfl, h3⟩
    exact ⟨d, rfl, (mapGet_at ..).mp h1, (mapGet_at ..).mp h2, fun p hp => (text_iff p).mp (h3 p hp)⟩
  · rintro ⟨d, rfl, h1, h2, h3⟩
    exact ⟨d, _, rfl, (mapGet_at ..).mpr h1, (mapGet_at ..).mpr h2, rfl, fun p hp => (text_iff p).mpr (h3 p hp)⟩

theorem sifted_iff (es : List Metainfo) (fs : List File) : keepOk (es.map File.fromMetainfo) = fs ↔ Sifted es fs := by
  induction es generalizing fs with
  | nil =>
    simp only [List.map_nil, keepOk]
    constructor
    · rintro rfl; exact .nil
    · intro h; cases h; rfl
  | cons m t ih =>
    rw [List.map_cons]
    by_cases hm : ∃ f, IsEntry m f
    · obtain ⟨f, hf⟩ := hm
      rw [(isEntry_iff m f).mpr hf]
      simp only [keepOk]
      constructor
      · rintro rfl
        exact .keep hf ((ih _).mp rfl)
      · intro h
        cases h with
        | keep hf' ht =>
          have := (isEntry_iff _ _).mpr hf'
          rw [(isEntry_iff m f).mpr hf] at this
          cases this
          rw [(ih _).mpr ht]
        | drop hn _ => exact absurd hf (hn f)
    · have hm' : ∀ f, ¬ IsEntry m f := fun f hf => hm ⟨f, hf⟩
      have e : keepOk (File.fromMetainfo m :: t.map File.fromMetainfo) = keepOk (t.map File.fromMetainfo) := by
        cases hf : File.fromMetainfo m with
        | ok f => exact absurd ((isEntry_iff m f).mp hf) (hm' f)
        | err e => rfl
        | panic => rfl
        | hang => rfl
      rw [e]
      constructor
      · intro h; exact .drop hm' ((ih _).mp h)
      · intro h
        cases h with
        | keep hf _ => exact absurd hf (hm' _)
        | drop _ ht => exact (ih _).mpr ht

theorem getBytes_iff (d : List (Bytes × Metainfo)) (k s : Bytes) :
    (Metainfo.dictionary d).getBytesFromDict k = .ok s ↔ At d k (.string s) := by
  rw [← mapGet_at]
  simp only [Metainfo.getBytesFromDict, Metainfo.getDictContent, Res.bind_ok]
  cases mapGet d k with
  | none => simp
  | some v => cases v <;> simp [Metainfo.getBytesContent]

theorem getString_iff (d : List (Bytes × Metainfo)) (k s : Bytes) :
    (Metainfo.dictionary d).getStringFromDict k = .ok s ↔ At d k (.string s) ∧ Text s := by
  rw [← mapGet_at, ← text_iff]
  simp only [Metainfo.getStringFromDict, Metainfo.getDictContent, Res.bind_ok]
  cases mapGet d k with
  | none => simp
  | some v =>
    cases v with
    | string t =>
      simp only [Metainfo.getStringContent, Option.some.injEq, Metainfo.string.injEq]
      constructor
      · intro h
        split at h
        · cases h; exact ⟨rfl, by assumption⟩
        · cases h
      · rintro ⟨rfl, h⟩
        rw [if_pos h]
    | _ => simp [Metainfo.getStringContent]

theorem getInteger_iff (d : List (Bytes × Metainfo)) (k : Bytes) (n : Nat) :
    (Metainfo.dictionary d).getIntegerFromDict k = .ok n ↔ At d k (.integer n) := by
  rw [← mapGet_at]
  simp only [Metainfo.getIntegerFromDict, Metainfo.getDictContent, Res.bind_ok]
  cases mapGet d k with
  | none => simp
  | some v => cases v <;> simp [Metainfo.getIntegerContent]

theorem getList_iff (d : List (Bytes × Metainfo)) (k : Bytes) (l : List Metainfo) :
    (Metainfo.dictionary d).getListFromDict k = .ok l ↔ At d k (.list l) := by
  rw [← mapGet_at]
  simp only [Metainfo.getListFromDict, Metainfo.getDictContent, Res.bind_ok]
  cases mapGet d k with
  | none => simp
  | some v => cases v <;> simp [Metainfo.getListContent]

theorem getInteger_returns (m : Metainfo) (k : Bytes) : (∃ n, m.getIntegerFromDict k = .ok n) ∨ ∃ e, m.getIntegerFromDict k = .err e := by
  unfold Metainfo.getIntegerFromDict
  cases m with
  | dictionary d =>
    simp only [Metainfo.getDictContent, Res.bind_ok]
    cases mapGet d k with
    | none => exact .inr ⟨_, rfl⟩
    | some v => cases v <;> simp [Metainfo.getIntegerContent]
  | _ => exact .inr ⟨_, rfl⟩

theorem getList_returns (m : Metainfo) (k : Bytes) : (∃ l, m.getListFromDict k = .ok l) ∨ ∃ e, m.getListFromDict k = .err e := by
  unfold Metainfo.getListFromDict
  cases m with
  | dictionary d =>
    simp only [Metainfo.getDictContent, Res.bind_ok]
    cases mapGet d k with
    | none => exact .inr ⟨_, rfl⟩
    | some v => cases v <;> simp [Metainfo.getListContent]
  | _ => exact .inr ⟨_, rfl⟩

/-- C17, exactly: which decoded values are accepted and as which metadata. Entries of `files` that are no file entries are left out (the defect),
`length` and `files` of another type are as good as missing. -/
theorem C17_exact (a : Metainfo) (i : Info) : Info.fromMetainfo a = .ok i ↔ ReadsAs a i := by
  constructor
  · intro h
    unfold Info.fromMetainfo at h
    obtain ⟨p, hp, h⟩ := bind_eq_ok h
    obtain ⟨pl, hpl, h⟩ := bind_eq_ok h
    obtain ⟨nm, hnm, h⟩ := bind_eq_ok h
    obtain ⟨ln, hln, h⟩ := bind_eq_ok h
    obtain ⟨el, hel, h⟩ := bind_eq_ok h
    have hp := mapErr_eq_ok hp
    have hpl := mapErr_eq_ok hpl
    have hnm := mapErr_eq_ok hnm
    simp only [Res.ok.injEq] at h
    subst h
    cases a with
    | dictionary d =>
      obtain ⟨hn1, hn2⟩ := (getString_iff ..).mp hnm
      refine ⟨d, rfl, (getBytes_iff ..).mp hp, (getInteger_iff ..).mp hpl, hn1, hn2, ?_, ?_⟩
      · intro n
        rw [← getInteger_iff]
        rcases getInteger_returns (.dictionary d) b!"length" with ⟨k, hk⟩ | ⟨e, hk⟩
        · rw [hk] at hln ⊢
          simp only [Res.toOption, Res.ok.injEq] at hln
          rw [← hln]
          simp
        · rw [hk] at hln ⊢
          simp only [Res.toOption, Res.ok.injEq] at hln
          rw [← hln]
          simp
      · intro fs
        rcases getList_returns (.dictionary d) b!"files" with ⟨k, hk⟩ | ⟨e, hk⟩
        · have hA := (getList_iff ..).mp hk
          rw [hk] at hel
          simp only [Res.toOption, Res.ok.injEq] at hel
          rw [← hel]
          simp only [Option.map_some, Option.some.injEq]
          constructor
          · intro h; exact ⟨k, hA, (sifted_iff ..).mp h⟩
          · rintro ⟨es, h1, h2⟩
            have := (getList_iff ..).mpr h1
            rw [hk] at this
            cases this
            exact (sifted_iff ..).mpr h2
        · rw [hk] at hel
          simp only [Res.toOption, Res.ok.injEq] at hel
          rw [← hel]
          simp only [Option.map_none, reduceCtorEq, false_iff]
          rintro ⟨es, h1, -⟩
          rw [(getList_iff ..).mpr h1] at hk
          cases hk
    | _ => simp [Metainfo.getBytesFromDict, Metainfo.getDictContent] at hp
  · rintro ⟨d, rfl, h1, h2, h3, h4, h5, h6⟩
    obtain ⟨files, length, name, pieceLength, pieces⟩ := i
    simp only [] at h1 h2 h3 h4 h5 h6
    have e1 := (getBytes_iff ..).mpr h1
    have e2 := (getInteger_iff ..).mpr h2
    have e3 := (getString_iff ..).mpr ⟨h3, h4⟩
    have e4 : ((Metainfo.dictionary d).getIntegerFromDict b!"length").toOption (ε' := InfoError) = .ok length := by
      rcases getInteger_returns (.dictionary d) b!"length" with ⟨k, hk⟩ | ⟨e, hk⟩
      · rw [hk, (h5 k).mpr ((getInteger_iff ..).mp hk)]
        rfl
      · cases length with
        | none => rw [hk]; rfl
        | some n =>
          rw [(getInteger_iff ..).mpr ((h5 n).mp rfl)] at hk
          cases hk
    have e5 : ∃ el, ((Metainfo.dictionary d).getListFromDict b!"files").toOption (ε' := InfoError) = .ok el ∧
        el.map (fun l => keepOk (l.map File.fromMetainfo)) = files := by
      rcases getList_returns (.dictionary d) b!"files" with ⟨k, hk⟩ | ⟨e, hk⟩
      · refine ⟨some k, by rw [hk]; rfl, ?_⟩
        rw [(h6 _).mpr ⟨k, (getList_iff ..).mp hk, (sifted_iff _ _).mp rfl⟩]
        rfl
      · refine ⟨none, by rw [hk]; rfl, ?_⟩
        cases files with
        | none => rfl
        | some fs =>
          obtain ⟨es, hA, -⟩ := (h6 fs).mp rfl
          rw [(getList_iff ..).mpr hA] at hk
          cases hk
    obtain ⟨el, e5, rfl⟩ := e5
    rw [Info.fromMetainfo, e1, e2, e3, e4, e5]
    rfl

/-- C12, exactly: the bytes that are accepted as metadata are those that start with a document of the decoder's grammar (C11) that stands for metadata;
what follows is ignored. -/
theorem C12_accepts_exactly (c : Bytes) (i : Info) :
    Info.fromBytes c = .ok i ↔ ∃ v bs rest, c = bs ++ rest ∧ Lenient v bs ∧ ReadsAs v i := by
  constructor
  · intro h
    unfold Info.fromBytes at h
    obtain ⟨⟨v, n⟩, hv, h⟩ := bind_eq_ok h
    have hv := mapErr_eq_ok hv
    have hr := (C17_exact v i).mp h
    by_cases hn : 0 < n
    · exact ⟨v, c.take n, c.drop n, (List.take_append_drop n c).symm, C11_accepts_lenient_partial c v n hv hn, hr⟩
    · have : n = 0 := by omega
      subst this
      obtain ⟨rfl, -⟩ := (C11_nothing_exactly_partial c v).mp hv
      obtain ⟨d, h1, -⟩ := hr
      cases h1
  · rintro ⟨v, bs, rest, rfl, hl, hr⟩
    have hd : Decoder.decode (bs ++ rest) = .ok (v, bs.length) := by
      refine (C11_accepts_exactly_partial _ v bs.length ?_).mpr ⟨by simp, by simpa using hl⟩
      cases hl with
      | int => simp
      | str h _ => cases h with | mk h0 => rw [List.length_append, List.length_cons]; omega
      | list => simp
      | dict => simp
    rw [Info.fromBytes, hd]
    exact (C17_exact v i).mpr hr

/-- Non-vacuity: metadata with a file entry that is no such (it is dropped), a `length` of another type and a key without value. -/
example : Info.fromBytes b!"d5:filesld6:lengthi3e4:pathl1:aeed4:pathl1:beee6:length1:x4:name1:n12:piece lengthi4e6:pieces1:p3:zzze" =
    .ok ⟨some [⟨[b!"a"], 3⟩], none, b!"n", 4, b!"p"⟩ := by decide +kernel

/-- ... whereas `pieces` may not lack its value. -/
example : ∀ i, Info.fromBytes b!"d4:name1:n12:piece lengthi4e6:piecese" ≠ .ok i := by
  intro i h
  rw [show Info.fromBytes b!"d4:name1:n12:piece lengthi4e6:piecese" = .err (.metainfoError (.badMetainfoMatch b!"String" b!"Nothing")) by
    decide +kernel] at h
  cases h

end RustBit
