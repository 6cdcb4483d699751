/-
What writing a file can change, and paths that lead out of the working directory.
-/
import Verif.Spec.Escape
import Verif.Proofs.Writer

namespace RustBit
open Spec

theorem lex_append (l : Loc) (a b : List Bytes) : lex l (a ++ b) = lex (lex l a) b := by
  induction a generalizing l with
  | nil => rfl
  | cons c a ih => simp only [List.cons_append, lex]; split <;> exact ih _

theorem lex_snoc {l : Loc} {q : List Bytes} {c : Bytes} (h : c ≠ b!"..") : lex l (q ++ [c]) = lex l q ++ [c] := by
  rw [lex_append, lex, if_neg h, lex]

theorem walk_lex {fs : FS} {comps : List Bytes} : ∀ {l l' : Loc}, fs.walk l comps = .ok l' → l' = lex l comps := by
  induction comps with
  | nil => intro l l' e; simp only [FS.walk, Res.ok.injEq] at e; exact e.symm
  | cons c cs ih =>
    intro l l' e
    rw [FS.walk] at e
    rw [lex]
    split at e
    · rename_i h; rw [if_pos h]; exact ih e
    · rename_i h
      rw [if_neg h]
      split at e
      · exact ih e
      · cases e
      · cases e

theorem hasNul_false {comps : List Bytes} : hasNul comps = false ↔ ∀ x ∈ comps, (0 : UInt8) ∉ x := by
  simp only [hasNul, List.any_eq_false, List.contains_iff_mem]

theorem set_changes {fs : FS} {l x : Loc} {n : Node} (h : fs.set l n x ≠ fs x) : x = l := by
  simp only [FS.set] at h
  split at h
  · assumption
  · exact absurd rfl h

theorem mkdir_changes {fs fs' : FS} {base : Loc} {comps : List Bytes} (e : fs.mkdir base comps = .ok fs') :
    hasNul comps = false ∧ ∀ x, fs' x ≠ fs x → ∃ q c, comps = q ++ [c] ∧ c ≠ b!".." ∧ x = lex base (q ++ [c]) := by
  unfold FS.mkdir at e
  split at e
  · cases e
  · rename_i hn
    refine ⟨by simpa using hn, ?_⟩
    split at e
    · cases e
    · rename_i name hname
      cases hw : fs.walk base comps.dropLast with
      | ok l =>
        rw [hw] at e
        simp only [Res.bind_ok] at e
        split at e
        · cases e
        · rename_i hdd
          split at e
          · cases e
          · simp only [Res.ok.injEq] at e
            subst e
            intro x hx
            have hcomps : comps = comps.dropLast ++ [name] := by
              rcases List.eq_nil_or_concat comps with h0 | ⟨t, y, h0⟩
              · simp [h0] at hname
              · rw [List.concat_eq_append] at h0
                subst h0
                simp at hname
                simp [hname]
            refine ⟨comps.dropLast, name, hcomps, hdd, ?_⟩
            rw [set_changes hx, walk_lex hw, lex_snoc hdd]
      | err x => rw [hw] at e; cases e
      | panic => rw [hw] at e; cases e
      | hang => rw [hw] at e; cases e

theorem mkdir_hasNul {fs : FS} {base : Loc} {comps : List Bytes} (h : hasNul comps = true) : fs.mkdir base comps = .err .other := by
  rw [FS.mkdir, if_pos h]

theorem createDirAllRev_changes {base : Loc} (rev : List Bytes) (fs : FS) (x : Loc) (hx : (fs.createDirAllRev base rev).2 x ≠ fs x) :
    hasNul rev.reverse = false ∧ ∃ q c, q ++ [c] <+: rev.reverse ∧ c ≠ b!".." ∧ x = lex base (q ++ [c]) := by
  induction rev generalizing fs with
  | nil => exact absurd rfl hx
  | cons c rest ih =>
    rw [FS.createDirAllRev] at hx
    cases hm : fs.mkdir base (c :: rest).reverse with
    | ok fs1 =>
      rw [hm] at hx
      obtain ⟨h1, h2⟩ := mkdir_changes hm
      obtain ⟨q, c', e, h3, h4⟩ := h2 x hx
      exact ⟨h1, q, c', by rw [e]; exact List.prefix_rfl, h3, h4⟩
    | err er =>
      cases er with
      | notFound =>
        rw [hm] at hx
        simp only [] at hx
        have hnul : hasNul (c :: rest).reverse = false := by
          cases h : hasNul (c :: rest).reverse with
          | false => rfl
          | true => rw [mkdir_hasNul h] at hm; cases hm
        refine ⟨hnul, ?_⟩
        have key : (fs.createDirAllRev base rest).2 x ≠ fs x → ∃ q c', q ++ [c'] <+: (c :: rest).reverse ∧ c' ≠ b!".." ∧ x = lex base (q ++ [c']) := by
          intro h
          obtain ⟨-, q, c', h1, h2, h3⟩ := ih fs h
          exact ⟨q, c', h1.trans (by rw [List.reverse_cons]; exact List.prefix_append _ _), h2, h3⟩
        generalize fs.createDirAllRev base rest = r at hx key
        obtain ⟨r1, fs1⟩ := r
        cases r1 with
        | ok u =>
          simp only [] at hx
          cases hm2 : fs1.mkdir base (c :: rest).reverse with
          | ok fs2 =>
            rw [hm2] at hx
            by_cases h12 : fs2 x = fs1 x
            · exact key (by show fs1 x ≠ fs x; rw [← h12]; exact hx)
            · obtain ⟨q, c', e, h3, h4⟩ := (mkdir_changes hm2).2 x h12
              exact ⟨q, c', by rw [e]; exact List.prefix_rfl, h3, h4⟩
          | err e => rw [hm2] at hx; simp only [] at hx; split at hx <;> exact key hx
          | panic => rw [hm2] at hx; simp only [] at hx; split at hx <;> exact key hx
          | hang => rw [hm2] at hx; simp only [] at hx; split at hx <;> exact key hx
        | err e => exact key hx
        | panic => exact key hx
        | hang => exact key hx
      | other => rw [hm] at hx; simp only [] at hx; split at hx <;> exact absurd rfl hx
    | panic => rw [hm] at hx; simp only [] at hx; split at hx <;> exact absurd rfl hx
    | hang => rw [hm] at hx; simp only [] at hx; split at hx <;> exact absurd rfl hx

theorem openCreate_changes {fs fs' : FS} {cwd l : Loc} {p : PathBuf} (e : fs.openCreate cwd p = .ok (l, fs')) :
    ∃ q c, p.comps = q ++ [c] ∧ c ≠ b!".." ∧ hasNul p.comps = false ∧ p.trailing = false ∧ l = lex (p.base cwd) (q ++ [c]) ∧
      ∀ x, fs' x ≠ fs x → x = l := by
  unfold FS.openCreate at e
  split at e
  · cases e
  · rename_i hn
    simp only [Bool.or_eq_true, not_or, Bool.not_eq_true] at hn
    split at e
    · cases e
    · rename_i name hname
      have hcomps : p.comps = p.comps.dropLast ++ [name] := by
        rcases List.eq_nil_or_concat p.comps with h0 | ⟨t, y, h0⟩
        · simp [h0] at hname
        · rw [List.concat_eq_append] at h0
          rw [h0] at hname ⊢
          simp at hname
          simp [hname]
      cases hw : fs.walk (p.base cwd) p.comps.dropLast with
      | ok l1 =>
        rw [hw] at e
        simp only [Res.bind_ok] at e
        split at e
        · cases e
        · rename_i hdd
          split at e
          · cases e
          · simp only [Res.ok.injEq, Prod.mk.injEq] at e
            obtain ⟨rfl, rfl⟩ := e
            exact ⟨_, name, hcomps, hdd, hn.1, hn.2, by rw [walk_lex hw, lex_snoc hdd], fun x hx => absurd rfl hx⟩
          · simp only [Res.ok.injEq, Prod.mk.injEq] at e
            obtain ⟨rfl, rfl⟩ := e
            exact ⟨_, name, hcomps, hdd, hn.1, hn.2, by rw [walk_lex hw, lex_snoc hdd], fun x hx => set_changes hx⟩
      | err x => rw [hw] at e; cases e
      | panic => rw [hw] at e; cases e
      | hang => rw [hw] at e; cases e

theorem writeAt_changes {fs : FS} {l x : Loc} {s : Nat} {b : Bytes} (h : fs.writeAt l s b x ≠ fs x) : x = l := by
  cases hl : fs l with
  | none => simp only [FS.writeAt, hl] at h; exact absurd rfl h
  | some n =>
    cases n with
    | dir => simp only [FS.writeAt, hl] at h; exact absurd rfl h
    | file c => simp only [FS.writeAt, hl] at h; exact set_changes h

theorem split_of_prefix_dropLast {comps q : List Bytes} {c : Bytes} (h : q ++ [c] <+: comps.dropLast) :
    ∃ r, comps = q ++ c :: r ∧ r ≠ [] := by
  obtain ⟨t, ht⟩ := h
  rcases List.eq_nil_or_concat comps with rfl | ⟨u, y, rfl⟩
  · simp at ht
  · rw [List.concat_eq_append] at ht ⊢
    rw [List.dropLast_concat] at ht
    subst ht
    exact ⟨t ++ [y], by simp, by simp⟩

/-- Writing changes only locations the components of the path lead to. -/
theorem writeToFilesystem_changes {ε : Type} {cwd : Loc} {fs : FS} {w : FileWriter} {x : Loc}
    (hx : (w.writeToFilesystem cwd fs : Res ε Unit × FS).2 x ≠ fs x) :
    let p := PathBuf.parse (joinPath w.path)
    ∃ q c r, p.comps = q ++ c :: r ∧ c ≠ b!".." ∧ x = lex (p.base cwd) (q ++ [c]) ∧
      (if r = [] then p.trailing = false ∧ ∀ x ∈ p.comps, (0 : UInt8) ∉ x else ∀ x ∈ p.comps.dropLast, (0 : UInt8) ∉ x) := by
  unfold FileWriter.writeToFilesystem at hx
  simp only [] at hx ⊢
  generalize PathBuf.parse (joinPath w.path) = p at hx ⊢
  split at hx
  · exact absurd rfl hx
  · have key : (fs.createDirAll (p.base cwd) p.comps.dropLast).2 x ≠ fs x → ∃ q c r, p.comps = q ++ c :: r ∧ c ≠ b!".." ∧
        x = lex (p.base cwd) (q ++ [c]) ∧
        (if r = [] then p.trailing = false ∧ ∀ x ∈ p.comps, (0 : UInt8) ∉ x else ∀ x ∈ p.comps.dropLast, (0 : UInt8) ∉ x) := by
      intro h
      obtain ⟨h1, q, c, h2, h3, h4⟩ := createDirAllRev_changes _ fs x h
      rw [List.reverse_reverse] at h1 h2
      obtain ⟨r, hr, hne⟩ := split_of_prefix_dropLast h2
      exact ⟨q, c, r, hr, h3, h4, by rw [if_neg hne]; exact hasNul_false.mp h1⟩
    generalize fs.createDirAll (p.base cwd) p.comps.dropLast = r at hx key
    obtain ⟨r1, fs1⟩ := r
    cases r1 with
    | ok u =>
      simp only [] at hx
      cases ho : fs1.openCreate cwd p with
      | ok lf =>
        obtain ⟨l, fs2⟩ := lf
        rw [ho] at hx
        obtain ⟨q, c, h1, h2, h3, h4, h5, h6⟩ := openCreate_changes ho
        have hxl : x = l ∨ fs1 x ≠ fs x := by
          by_cases a : (fs2.writeAt l w.start w.piece) x = fs2 x
          · by_cases b : fs2 x = fs1 x
            · right
              rw [← b, ← a]
              exact hx
            · exact .inl (h6 x b)
          · exact .inl (writeAt_changes a)
        rcases hxl with h | h
        · exact ⟨q, c, [], h1, h2, by rw [h, h5], by rw [if_pos rfl]; exact ⟨h4, hasNul_false.mp h3⟩⟩
        · exact key h
      | err e => rw [ho] at hx; exact key hx
      | panic => rw [ho] at hx; exact key hx
      | hang => rw [ho] at hx; exact key hx
    | err e => exact key hx
    | panic => exact key hx
    | hang => exact key hx

theorem stays_lex {cwd : Loc} {q : List Bytes} : ∀ {B : List Bytes}, Stays B.length q → ∃ B', lex (cwd ++ B) q = cwd ++ B' := by
  induction q with
  | nil => intro B _; exact ⟨B, rfl⟩
  | cons c q ih =>
    intro B h
    rw [Stays] at h
    rw [lex]
    split at h
    · rename_i hc
      rw [if_pos hc]
      have hne : B ≠ [] := by intro e; rw [e] at h; simp at h
      rw [List.dropLast_append_of_ne_nil hne]
      exact ih (by rw [List.length_dropLast]; exact h.2)
    · rename_i hc
      rw [if_neg hc, List.append_assoc]
      exact ih (by simpa using h)

theorem writeToFilesystem_confined {ε : Type} {cwd : Loc} {fs : FS} {w : FileWriter} (h : ¬ Escapes (joinPath w.path)) :
    OnlyBelow cwd fs (w.writeToFilesystem cwd fs : Res ε Unit × FS).2 := by
  intro x hx
  obtain ⟨q, c, r, h1, h2, h3, h4⟩ := writeToFilesystem_changes hx
  apply Classical.byContradiction
  intro hno
  refine h ⟨q, c, r, h1, h2, ?_, h4⟩
  cases ha : (PathBuf.parse (joinPath w.path)).absolute with
  | true => exact .inl rfl
  | false =>
    right
    intro hs
    rw [PathBuf.base, ha, if_neg (by simp)] at h3
    obtain ⟨B', hB⟩ := stays_lex (cwd := cwd) (q := q) (B := []) hs
    rw [List.append_nil] at hB
    rw [lex_snoc h2, hB, List.append_assoc] at h3
    exact hno ⟨_, h3.symm⟩

theorem writeAllParts_confined {ε : Type} {cwd : Loc} {ws : List FileWriter} : ∀ {fs : FS},
    (∀ w ∈ ws, ¬ Escapes (joinPath w.path)) → OnlyBelow cwd fs (writeAllParts cwd fs ws : Res ε Unit × FS).2 := by
  induction ws with
  | nil => intro fs _; exact onlyBelow_refl _ _
  | cons w ws ih =>
    intro fs h
    rw [writeAllParts]
    have h1 := writeToFilesystem_confined (ε := ε) (cwd := cwd) (fs := fs) (h w (by simp))
    generalize (w.writeToFilesystem cwd fs : Res ε Unit × FS) = r at h1
    obtain ⟨r1, fs1⟩ := r
    cases r1 with
    | ok u => exact onlyBelow_trans h1 (ih (fun v hv => h v (List.mem_cons_of_mem _ hv)))
    | err e => exact h1
    | panic => exact h1
    | hang => exact h1

/-! ### The other direction: a path that escapes makes something outside of some directory -/

/-- No files on the way. -/
def NoFile (fs : FS) (base : Loc) (comps : List Bytes) : Prop :=
  ∀ q c, q ++ [c] <+: comps → c ≠ b!".." → ∀ d, fs (lex base (q ++ [c])) ≠ some (.file d)

theorem noFile_cons {fs : FS} {base : Loc} {c : Bytes} {cs : List Bytes} (h : NoFile fs base (c :: cs)) :
    (c ≠ b!".." → ∀ d, fs (base ++ [c]) ≠ some (.file d)) ∧ NoFile fs (lex base [c]) cs := by
  refine ⟨fun hc => ?_, fun q d hq hd => ?_⟩
  · have := h [] c ⟨cs, rfl⟩ hc
    rw [List.nil_append, lex, if_neg hc] at this
    exact this
  · have := h (c :: q) d (by obtain ⟨t, ht⟩ := hq; exact ⟨t, by simp [← ht]⟩) hd
    rw [show (c :: q) ++ [d] = [c] ++ (q ++ [d]) from rfl, lex_append] at this
    exact this

theorem noFile_prefix {fs : FS} {base : Loc} {a b : List Bytes} (h : NoFile fs base (a ++ b)) : NoFile fs base a :=
  fun q c hq hc => h q c (hq.trans (List.prefix_append _ _)) hc

/-- Every name on the way is a directory. -/
def Dirs (fs : FS) (base : Loc) (comps : List Bytes) : Prop :=
  ∀ q c, q ++ [c] <+: comps → c ≠ b!".." → fs (lex base (q ++ [c])) = some .dir

theorem dirs_cons {fs : FS} {base : Loc} {c : Bytes} {cs : List Bytes} :
    Dirs fs base (c :: cs) ↔ (c ≠ b!".." → fs (base ++ [c]) = some .dir) ∧ Dirs fs (lex base [c]) cs := by
  constructor
  · intro h
    refine ⟨fun hc => ?_, fun q d hq hd => ?_⟩
    · have := h [] c ⟨cs, rfl⟩ hc
      rw [List.nil_append, lex, if_neg hc] at this
      exact this
    · have := h (c :: q) d (by obtain ⟨t, ht⟩ := hq; exact ⟨t, by simp [← ht]⟩) hd
      rw [show (c :: q) ++ [d] = [c] ++ (q ++ [d]) from rfl, lex_append] at this
      exact this
  · rintro ⟨h1, h2⟩ q d hq hd
    cases q with
    | nil =>
      obtain ⟨t, ht⟩ := hq
      simp only [List.nil_append, List.cons_append, List.cons.injEq] at ht
      obtain ⟨rfl, -⟩ := ht
      rw [List.nil_append, lex, if_neg hd]
      exact h1 hd
    | cons a q =>
      obtain ⟨t, ht⟩ := hq
      simp only [List.cons_append, List.cons.injEq] at ht
      obtain ⟨rfl, ht⟩ := ht
      rw [show (a :: q) ++ [d] = [a] ++ (q ++ [d]) from rfl, lex_append]
      exact h2 q d ⟨t, ht⟩ hd

theorem walk_noFile {fs : FS} {comps : List Bytes} : ∀ {l : Loc}, NoFile fs l comps →
    (Dirs fs l comps ∧ fs.walk l comps = .ok (lex l comps)) ∨ (¬ Dirs fs l comps ∧ fs.walk l comps = .err .notFound) := by
  induction comps with
  | nil => intro l _; left; exact ⟨fun q c h => by simp at h, rfl⟩
  | cons c cs ih =>
    intro l hf
    obtain ⟨hf1, hf2⟩ := noFile_cons hf
    rw [FS.walk, lex, dirs_cons]
    by_cases hc : c = b!".."
    · rw [lex, if_pos hc, lex] at hf2
      rw [if_pos hc, if_pos hc, lex, if_pos hc, lex]
      simpa [hc] using ih hf2
    · rw [lex, if_neg hc, lex] at hf2
      rw [if_neg hc, if_neg hc, lex, if_neg hc, lex]
      cases hn : fs (l ++ [c]) with
      | none => right; exact ⟨fun h => by simpa using h.1 hc, rfl⟩
      | some n =>
        cases n with
        | file d => exact absurd hn (hf1 hc _)
        | dir => simpa using ih hf2

theorem dirs_snoc {fs : FS} {base : Loc} {r : List Bytes} {c : Bytes} (h : Dirs fs base r)
    (hc : c ≠ b!".." → fs (lex base (r ++ [c])) = some .dir) : Dirs fs base (r ++ [c]) := by
  intro q d hq hd
  rcases prefix_snoc.mp hq with hq | hq
  · exact h q d hq hd
  · rw [hq]
    have := List.append_inj_right' hq rfl
    simp only [List.cons.injEq, and_true] at this
    exact hc (by rw [← this]; exact hd)

theorem dirs_mono {fs fs' : FS} {base : Loc} {r : List Bytes} (h : Dirs fs base r) (hm : ∀ x, fs x = some .dir → fs' x = some .dir) :
    Dirs fs' base r := fun q c hq hc => hm _ (h q c hq hc)

/-- What was there stays, and no files are new. -/
def Adds (fs fs' : FS) : Prop := (∀ x n, fs x = some n → fs' x = some n) ∧ ∀ x d, fs' x = some (.file d) → fs x = some (.file d)

theorem adds_trans {a b c : FS} (h1 : Adds a b) (h2 : Adds b c) : Adds a c :=
  ⟨fun x n h => h2.1 x n (h1.1 x n h), fun x d h => h1.2 x d (h2.2 x d h)⟩

theorem noFile_adds {fs fs' : FS} {base : Loc} {comps : List Bytes} (h : NoFile fs base comps) (ha : Adds fs fs') : NoFile fs' base comps :=
  fun q c hq hc d hd => h q c hq hc d (ha.2 _ _ hd)

/-- The last step, when the way is there. -/
theorem mkdir_step {fs : FS} {base : Loc} {r : List Bytes} {c : Bytes} (hf : NoFile fs base (r ++ [c])) (hd : Dirs fs base r)
    (hn : hasNul (r ++ [c]) = false) :
    ∃ fs', Adds fs fs' ∧ Dirs fs' base (r ++ [c]) ∧
      (fs.mkdir base (r ++ [c]) = .ok fs' ∨ (fs.mkdir base (r ++ [c]) = .err .other ∧ fs' = fs ∧ fs.isDir base (r ++ [c]) = true)) := by
  have hw : fs.walk base r = .ok (lex base r) := by
    rcases walk_noFile (noFile_prefix hf) with ⟨-, h⟩ | ⟨h, -⟩
    · exact h
    · exact absurd hd h
  have hdir : Dirs fs base (r ++ [c]) → fs.isDir base (r ++ [c]) = true := by
    intro h
    rw [FS.isDir, hn]
    rcases walk_noFile hf with ⟨-, h'⟩ | ⟨h', -⟩
    · rw [h']; rfl
    · exact absurd h h'
  have hm : fs.mkdir base (r ++ [c]) = if c = b!".." then .err .other else match fs (lex base r ++ [c]) with
      | some _ => .err .other
      | none => .ok (fs.set (lex base r ++ [c]) .dir) := by
    rw [FS.mkdir, hn, if_neg (by simp), List.getLast?_concat, List.dropLast_concat]
    simp only []
    rw [hw]
    rfl
  by_cases hc : c = b!".."
  · rw [if_pos hc] at hm
    have := dirs_snoc (c := c) hd (fun h => absurd hc h)
    exact ⟨fs, ⟨fun _ _ h => h, fun _ _ h => h⟩, this, .inr ⟨hm, rfl, hdir this⟩⟩
  · rw [if_neg hc] at hm
    cases hx : fs (lex base r ++ [c]) with
    | some n =>
      rw [hx] at hm
      have hx' : fs (lex base r ++ [c]) = some .dir := by
        cases n with
        | dir => exact hx
        | file d => exact absurd (by rw [lex_snoc hc]; exact hx) (hf r c List.prefix_rfl hc d)
      have := dirs_snoc (c := c) hd (fun _ => by rw [lex_snoc hc]; exact hx')
      exact ⟨fs, ⟨fun _ _ h => h, fun _ _ h => h⟩, this, .inr ⟨hm, rfl, hdir this⟩⟩
    | none =>
      rw [hx] at hm
      have hmono : ∀ x n, fs x = some n → fs.set (lex base r ++ [c]) .dir x = some n := by
        intro x n h
        simp only [FS.set]
        split
        · rename_i e; rw [e, hx] at h; cases h
        · exact h
      refine ⟨_, ⟨hmono, ?_⟩, ?_, .inl hm⟩
      · intro l d h
        simp only [FS.set] at h
        split at h
        · cases h
        · exact h
      · refine dirs_snoc (dirs_mono hd (fun x => hmono x _)) (fun _ => ?_)
        rw [lex_snoc hc]
        simp [FS.set]

theorem createDirAllRev_dirs {base : Loc} (rev : List Bytes) {fs : FS} (hf : NoFile fs base rev.reverse) (hn : hasNul rev.reverse = false) :
    ∃ fs', fs.createDirAllRev base rev = (.ok (), fs') ∧ Adds fs fs' ∧ Dirs fs' base rev.reverse := by
  induction rev with
  | nil => exact ⟨fs, rfl, ⟨fun _ _ h => h, fun _ _ h => h⟩, fun q c h => by simp at h⟩
  | cons c rest ih =>
    have hn' : hasNul rest.reverse = false := by
      rw [hasNul_false] at hn ⊢
      intro x hx
      exact hn x (by rw [List.reverse_cons]; exact List.mem_append_left _ hx)
    rw [List.reverse_cons] at hn hf ⊢
    rw [FS.createDirAllRev, List.reverse_cons]
    rcases walk_noFile (noFile_prefix hf) with ⟨hd, -⟩ | ⟨-, hw⟩
    · obtain ⟨fs', h2, h3, h4 | ⟨h4, rfl, h5⟩⟩ := mkdir_step hf hd hn
      · rw [h4]; exact ⟨fs', rfl, h2, h3⟩
      · rw [h4]; exact ⟨fs', by simp only [h5, if_true], h2, h3⟩
    · have hm : fs.mkdir base (rest.reverse ++ [c]) = .err .notFound := by
        rw [FS.mkdir, hn, if_neg (by simp), List.getLast?_concat, List.dropLast_concat]
        simp only []
        rw [hw]
        rfl
      rw [hm]
      obtain ⟨fs1, e1, hm1, hd1⟩ := ih (noFile_prefix hf) hn'
      simp only [e1]
      obtain ⟨fs', h2, h3, h4 | ⟨h4, rfl, h5⟩⟩ := mkdir_step (noFile_adds hf hm1) hd1 hn
      · rw [h4]; exact ⟨fs', rfl, adds_trans hm1 h2, h3⟩
      · rw [h4]; exact ⟨fs', by simp only [h5, if_true], adds_trans hm1 h2, h3⟩

theorem openCreate_keeps_dirs {fs fs' : FS} {cwd l : Loc} {p : PathBuf} (e : fs.openCreate cwd p = .ok (l, fs')) {x : Loc}
    (hx : fs x = some .dir) (s : Nat) (b : Bytes) : fs'.writeAt l s b x = some .dir := by
  have h1 : fs' x = some .dir ∧ ∃ c, fs' l = some (.file c) := by
    unfold FS.openCreate at e
    split at e
    · cases e
    · split at e
      · cases e
      · cases hw : fs.walk (p.base cwd) p.comps.dropLast with
        | ok l1 =>
          rw [hw] at e
          simp only [Res.bind_ok] at e
          split at e
          · cases e
          · split at e
            · cases e
            · rename_i c hc
              simp only [Res.ok.injEq, Prod.mk.injEq] at e
              obtain ⟨rfl, rfl⟩ := e
              exact ⟨hx, c, hc⟩
            · rename_i hc
              simp only [Res.ok.injEq, Prod.mk.injEq] at e
              obtain ⟨rfl, rfl⟩ := e
              refine ⟨?_, [], by simp [FS.set]⟩
              simp only [FS.set]
              split
              · rename_i h; rw [h, hc] at hx; cases hx
              · exact hx
        | err x => rw [hw] at e; cases e
        | panic => rw [hw] at e; cases e
        | hang => rw [hw] at e; cases e
  obtain ⟨h1, c, hc⟩ := h1
  unfold FS.writeAt
  rw [hc]
  simp only [FS.set]
  split
  · rename_i h; rw [h, hc] at h1; cases h1
  · exact h1

/-- On an empty disk everything on the way of an accepted path is made. -/
theorem writeToFilesystem_makes {ε : Type} {cwd : Loc} {w : FileWriter} {p : PathBuf} (hp : p = PathBuf.parse (joinPath w.path))
    {q r : List Bytes} {c : Bytes} (h1 : p.comps = q ++ c :: r) (h2 : c ≠ b!"..")
    (h4 : if r = [] then p.trailing = false ∧ ∀ x ∈ p.comps, (0 : UInt8) ∉ x else ∀ x ∈ p.comps.dropLast, (0 : UInt8) ∉ x) :
    (w.writeToFilesystem cwd (fun _ => none) : Res ε Unit × FS).2 (lex (p.base cwd) (q ++ [c])) ≠ none := by
  unfold FileWriter.writeToFilesystem
  simp only []
  rw [← hp, if_neg (by rw [h1]; simp)]
  have hnul : hasNul p.comps.dropLast = false := by
    rw [hasNul_false]
    split at h4
    · exact fun x hx => h4.2 x (List.dropLast_subset _ hx)
    · exact h4
  obtain ⟨fs1, e1, ha1, hd1⟩ := createDirAllRev_dirs (base := p.base cwd) p.comps.dropLast.reverse (fs := fun _ => none)
    (fun _ _ _ _ _ h => by cases h) (by rw [List.reverse_reverse]; exact hnul)
  rw [List.reverse_reverse] at hd1
  rw [show (FS.createDirAll (fun _ => none) (p.base cwd) p.comps.dropLast) = (.ok (), fs1) from e1]
  simp only []
  by_cases hr : r = []
  · rw [if_pos hr] at h4
    subst hr
    have hdl : p.comps.dropLast = q := by rw [h1, List.dropLast_concat]
    have hw : fs1.walk (p.base cwd) q = .ok (lex (p.base cwd) q) := by
      rcases walk_noFile (fs := fs1) (l := p.base cwd) (comps := q) (fun _ _ _ _ _ h => by have := ha1.2 _ _ h; cases this) with ⟨-, h⟩ | ⟨h, -⟩
      · exact h
      · rw [hdl] at hd1; exact absurd hd1 h
    have ho : fs1.openCreate cwd p = match fs1 (lex (p.base cwd) q ++ [c]) with
        | some .dir => .err .other
        | some (.file _) => .ok (lex (p.base cwd) q ++ [c], fs1)
        | none => .ok (lex (p.base cwd) q ++ [c], fs1.set (lex (p.base cwd) q ++ [c]) (.file [])) := by
      rw [FS.openCreate, hasNul_false.mpr h4.2, h4.1, if_neg (by simp), hdl, h1, List.getLast?_concat]
      simp only []
      rw [hw]
      simp only [Res.bind_ok]
      rw [if_neg h2]
      rfl
    rw [lex_snoc h2, ho]
    cases hx : fs1 (lex (p.base cwd) q ++ [c]) with
    | none =>
      simp only []
      rw [FS.writeAt]
      simp [FS.set]
    | some n =>
      cases n with
      | dir => simp only []; rw [hx]; simp
      | file d => have := ha1.2 _ _ hx; cases this
  · have hdir : fs1 (lex (p.base cwd) (q ++ [c])) = some .dir := by
      refine hd1 q c ?_ h2
      rw [h1, List.dropLast_append_of_ne_nil (by simp)]
      cases r with
      | nil => exact absurd rfl hr
      | cons y r =>
        rw [List.dropLast_cons_cons]
        exact ⟨(y :: r).dropLast, by simp⟩
    cases ho : fs1.openCreate cwd p with
    | ok lf =>
      obtain ⟨l, fs2⟩ := lf
      simp only []
      rw [openCreate_keeps_dirs ho hdir]
      simp
    | err e => simp only []; rw [hdir]; simp
    | panic => simp only []; rw [hdir]; simp
    | hang => simp only []; rw [hdir]; simp

/-- From a directory whose names do not occur in the path: what is left of them after following the path. -/
theorem lex_replicate {x : Bytes} {q : List Bytes} (hx : x ∉ q) : ∀ {k : Nat} {B : List Bytes}, x ∉ B → q.length ≤ k →
    ∃ k' B', lex (List.replicate k x ++ B) q = List.replicate k' x ++ B' ∧ x ∉ B' ∧ k' ≤ k ∧ (¬ Stays B.length q → k' < k) := by
  induction q with
  | nil => intro k B hB _; exact ⟨k, B, rfl, hB, Nat.le_refl _, fun h => absurd trivial h⟩
  | cons c q ih =>
    intro k B hB hk
    have hxq : x ∉ q := fun h => hx (List.mem_cons_of_mem _ h)
    simp only [List.length_cons] at hk
    rw [lex, Stays]
    by_cases hc : c = b!".."
    · rw [if_pos hc, if_pos hc]
      by_cases hB0 : B = []
      · subst hB0
        rw [List.append_nil]
        have : (List.replicate k x).dropLast = List.replicate (k - 1) x ++ [] := by simp
        rw [this]
        obtain ⟨k', B', e, h1, h2, -⟩ := ih hxq (k := k - 1) (B := []) (by simp) (by omega)
        exact ⟨k', B', e, h1, by omega, fun _ => by omega⟩
      · rw [List.dropLast_append_of_ne_nil hB0]
        obtain ⟨k', B', e, h1, h2, h3⟩ := ih hxq (k := k) (B := B.dropLast) (fun h => hB (List.dropLast_subset _ h)) (by omega)
        refine ⟨k', B', e, h1, h2, fun h => h3 (fun h' => h ⟨List.length_pos_iff.mpr hB0, ?_⟩)⟩
        rwa [List.length_dropLast] at h'
    · rw [if_neg hc, if_neg hc, List.append_assoc]
      obtain ⟨k', B', e, h1, h2, h3⟩ := ih hxq (k := k) (B := B ++ [c]) (by
        simp only [List.mem_append, List.mem_singleton, not_or]
        exact ⟨hB, fun h => hx (by rw [h]; exact List.mem_cons_self)⟩) (by omega)
      exact ⟨k', B', e, h1, h2, fun h => h3 (by simpa using h)⟩

theorem exists_fresh (comps : List Bytes) : ∃ n, 0 < n ∧ List.replicate n c!"x" ∉ comps := by
  refine ⟨(comps.map List.length).sum + 1, by omega, fun h => ?_⟩
  have : ∀ {l : List Bytes} {y : Bytes}, y ∈ l → y.length ≤ (l.map List.length).sum := by
    intro l
    induction l with
    | nil => intro y hy; cases hy
    | cons a l ih =>
      intro y hy
      rcases List.mem_cons.mp hy with rfl | hy
      · simp
      · have := ih hy; simp; omega
  have := this h
  simp only [List.length_replicate] at this
  omega

theorem not_prefix_fresh {x : Bytes} {n k : Nat} {B : List Bytes} (hB : x ∉ B) (hk : k < n) :
    ¬ List.replicate n x <+: List.replicate k x ++ B := by
  rintro ⟨t, ht⟩
  obtain ⟨d, rfl⟩ := Nat.exists_eq_add_of_lt hk
  rw [show k + d + 1 = k + (d + 1) from rfl, ← List.replicate_append_replicate, List.append_assoc] at ht
  have := List.append_cancel_left ht
  rw [List.replicate_succ, List.cons_append] at this
  exact hB (by rw [← this]; exact List.mem_cons_self)

/-- A path that escapes makes something outside the directory, for some directory made of ordinary names and the empty disk. -/
theorem escapes_witness {s : Bytes} (h : Escapes s) :
    ∃ n k : Nat, 0 < n ∧ 0 < k ∧ ∀ (ε : Type) (w : FileWriter), joinPath w.path = s →
      ¬ OnlyBelow (List.replicate k (List.replicate n c!"x")) (fun _ => none)
        (w.writeToFilesystem (List.replicate k (List.replicate n c!"x")) (fun _ => none) : Res ε Unit × FS).2 := by
  obtain ⟨q, c, r, h1, h2, h3, h4⟩ := h
  obtain ⟨n, hn, hfresh⟩ := exists_fresh (PathBuf.parse s).comps
  refine ⟨n, q.length + 1, hn, by omega, ?_⟩
  intro ε w hw hb
  have hx : List.replicate n c!"x" ∉ q := fun h => hfresh (by rw [h1]; exact List.mem_append_left _ h)
  have hc : List.replicate n c!"x" ≠ c := fun h => hfresh (by rw [h1, h]; simp)
  have hpre := hb _ (writeToFilesystem_makes (ε := ε) (cwd := List.replicate (q.length + 1) (List.replicate n c!"x")) (w := w)
    (by rw [hw]) h1 h2 h4)
  rw [lex_snoc h2] at hpre
  generalize hxx : List.replicate n c!"x" = x at *
  cases ha : (PathBuf.parse s).absolute with
  | true =>
    rw [PathBuf.base, ha, if_pos rfl] at hpre
    have hq : x ∉ lex [] q := by
      have : ∀ {q : List Bytes} {l : Loc}, x ∉ q → x ∉ l → x ∉ lex l q := by
        intro q
        induction q with
        | nil => intro l _ h; exact h
        | cons a q ih =>
          intro l hq hl
          rw [lex]
          simp only [List.mem_cons, not_or] at hq
          split
          · exact ih hq.2 (fun h => hl (List.dropLast_subset _ h))
          · exact ih hq.2 (by simp only [List.mem_append, List.mem_singleton, not_or]; exact ⟨hl, hq.1⟩)
      exact this hx (by simp)
    exact not_prefix_fresh (x := x) (n := q.length + 1) (k := 0) (B := lex [] q ++ [c]) (by
      simp only [List.mem_append, List.mem_singleton, not_or]; exact ⟨hq, hc⟩) (by omega) (by simpa using hpre)
  | false =>
    rw [ha] at h3
    rw [PathBuf.base, ha, if_neg (by simp)] at hpre
    obtain ⟨k', B', e, b1, -, b2⟩ := lex_replicate hx (k := q.length + 1) (B := []) (by simp) (by omega)
    rw [List.append_nil] at e
    rw [e, List.append_assoc] at hpre
    exact not_prefix_fresh (by
      simp only [List.mem_append, List.mem_singleton, not_or]; exact ⟨b1, hc⟩) (b2 (h3.resolve_left (by simp))) hpre

/-! ### When writing succeeds -/

theorem mkdir_adds {fs fs' : FS} {base : Loc} {comps : List Bytes} (e : fs.mkdir base comps = .ok fs') : Adds fs fs' := by
  unfold FS.mkdir at e
  split at e
  · cases e
  · split at e
    · cases e
    · cases hw : fs.walk base comps.dropLast with
      | ok l =>
        rw [hw] at e
        simp only [Res.bind_ok] at e
        split at e
        · cases e
        · split at e
          · cases e
          · rename_i hx
            simp only [Res.ok.injEq] at e
            subst e
            constructor
            · intro x n h
              simp only [FS.set]
              split
              · rename_i e; rw [e, hx] at h; cases h
              · exact h
            · intro x d h
              simp only [FS.set] at h
              split at h
              · cases h
              · exact h
      | err x => rw [hw] at e; cases e
      | panic => rw [hw] at e; cases e
      | hang => rw [hw] at e; cases e

theorem createDirAllRev_adds {base : Loc} (rev : List Bytes) (fs : FS) : Adds fs (fs.createDirAllRev base rev).2 := by
  have hrefl : Adds fs fs := ⟨fun _ _ h => h, fun _ _ h => h⟩
  induction rev with
  | nil => exact hrefl
  | cons c rest ih =>
    rw [FS.createDirAllRev]
    cases hm : fs.mkdir base (c :: rest).reverse with
    | ok fs1 => exact mkdir_adds hm
    | err er =>
      cases er with
      | notFound =>
        simp only []
        generalize fs.createDirAllRev base rest = r at ih
        obtain ⟨r1, fs1⟩ := r
        cases r1 with
        | ok u =>
          simp only []
          cases hm2 : fs1.mkdir base (c :: rest).reverse with
          | ok fs2 => exact adds_trans ih (mkdir_adds hm2)
          | err e => simp only []; split <;> exact ih
          | panic => simp only []; split <;> exact ih
          | hang => simp only []; split <;> exact ih
        | err e => exact ih
        | panic => exact ih
        | hang => exact ih
      | other => simp only []; split <;> exact hrefl
    | panic => simp only []; split <;> exact hrefl
    | hang => simp only []; split <;> exact hrefl

theorem walk_dirs_of_ok {fs : FS} {comps : List Bytes} : ∀ {l l' : Loc}, fs.walk l comps = .ok l' → Dirs fs l comps := by
  induction comps with
  | nil => intro l l' _ q c h; simp at h
  | cons c cs ih =>
    intro l l' e
    rw [FS.walk] at e
    rw [dirs_cons, lex]
    split at e
    · rename_i h; rw [if_pos h, lex]; exact ⟨fun h' => absurd h h', ih e⟩
    · rename_i h
      rw [if_neg h, lex]
      split at e
      · rename_i hd; exact ⟨fun _ => hd, ih e⟩
      · cases e
      · cases e

/-- Writing a part succeeds just if its path can be served; otherwise it panics. -/
theorem writeToFilesystem_ok_iff {ε : Type} {cwd : Loc} {fs : FS} {w : FileWriter} :
    (w.writeToFilesystem cwd fs : Res ε Unit × FS).1 = .ok () ↔ Writable fs cwd (joinPath w.path) := by
  unfold FileWriter.writeToFilesystem Writable
  simp only []
  generalize PathBuf.parse (joinPath w.path) = p
  constructor
  · intro h
    split at h
    · cases h
    · have hadd := createDirAllRev_adds (base := p.base cwd) p.comps.dropLast.reverse fs
      rw [← FS.createDirAll] at hadd
      generalize fs.createDirAll (p.base cwd) p.comps.dropLast = res at h hadd
      obtain ⟨r1, fs1⟩ := res
      cases r1 with
      | ok u =>
        simp only [] at h hadd
        cases ho : fs1.openCreate cwd p with
        | ok lf =>
          obtain ⟨l, fs2⟩ := lf
          obtain ⟨q0, name, h1, h2, h3, h4, h5, -⟩ := openCreate_changes ho
          have hw : ∃ l1, fs1.walk (p.base cwd) q0 = .ok l1 := by
            unfold FS.openCreate at ho
            rw [h3, h4, if_neg (by simp), h1, List.getLast?_concat, List.dropLast_concat] at ho
            simp only [] at ho
            cases hw : fs1.walk (p.base cwd) q0 with
            | ok l1 => exact ⟨l1, rfl⟩
            | err x => rw [hw] at ho; cases ho
            | panic => rw [hw] at ho; cases ho
            | hang => rw [hw] at ho; cases ho
          obtain ⟨l1, hw⟩ := hw
          have hd := walk_dirs_of_ok hw
          have hloc : fs1 (lex (p.base cwd) p.comps) ≠ some .dir := by
            unfold FS.openCreate at ho
            rw [h3, h4, if_neg (by simp), h1, List.getLast?_concat, List.dropLast_concat] at ho
            simp only [] at ho
            rw [hw] at ho
            simp only [Res.bind_ok, if_neg h2] at ho
            rw [h1, lex_snoc h2, ← walk_lex hw]
            intro hx
            rw [hx] at ho
            cases ho
          refine ⟨q0, name, h1, h2, h4, hasNul_false.mp h3, fun q c hq hc => ⟨fun d hx => ?_, fun he => ?_⟩, fun hx => hloc (hadd.1 _ _ hx)⟩
          · have := hadd.1 _ _ hx
            rw [hd q c hq hc] at this
            cases this
          · exact hloc (by rw [← he]; exact hd q c hq hc)
        | err e => rw [ho] at h; cases h
        | panic => rw [ho] at h; cases h
        | hang => rw [ho] at h; cases h
      | err e => cases h
      | panic => cases h
      | hang => cases h
  · rintro ⟨r, name, h1, h2, h3, h4, h5, h6⟩
    have hdl : p.comps.dropLast = r := by rw [h1, List.dropLast_concat]
    rw [if_neg (by rw [h1]; simp)]
    obtain ⟨fs1, e1, ha1, hd1⟩ := createDirAllRev_dirs (base := p.base cwd) p.comps.dropLast.reverse (fs := fs)
      (by rw [List.reverse_reverse, hdl]; exact fun q c hq hc => (h5 q c hq hc).1)
      (by rw [List.reverse_reverse]; exact hasNul_false.mpr (fun x hx => h4 x (List.dropLast_subset _ hx)))
    rw [List.reverse_reverse, hdl] at hd1
    rw [show fs.createDirAll (p.base cwd) p.comps.dropLast = (.ok (), fs1) from e1]
    simp only []
    have hw : fs1.walk (p.base cwd) r = .ok (lex (p.base cwd) r) := by
      rcases walk_noFile (fs := fs1) (l := p.base cwd) (comps := r)
        (fun q c hq hc d hx => (h5 q c hq hc).1 d (ha1.2 _ _ hx)) with ⟨-, h⟩ | ⟨h, -⟩
      · exact h
      · exact absurd hd1 h
    have hloc : fs1 (lex (p.base cwd) r ++ [name]) ≠ some .dir := by
      rw [← lex_snoc h2, ← h1]
      intro hx
      by_cases hch : fs1 (lex (p.base cwd) p.comps) = fs (lex (p.base cwd) p.comps)
      · exact h6 (by rw [← hch]; exact hx)
      · have e1' : fs1 = (fs.createDirAllRev (p.base cwd) p.comps.dropLast.reverse).2 := by rw [e1]
        rw [e1'] at hch
        obtain ⟨-, q, c, hq, hc, he⟩ := createDirAllRev_changes _ _ _ hch
        rw [List.reverse_reverse, hdl] at hq
        exact (h5 q c hq hc).2 he.symm
    have ho : ∃ lf, fs1.openCreate cwd p = .ok lf := by
      rw [FS.openCreate, hasNul_false.mpr h4, h3, if_neg (by simp), hdl, h1, List.getLast?_concat]
      simp only []
      rw [hw]
      simp only [Res.bind_ok]
      rw [if_neg h2]
      cases hx : fs1 (lex (p.base cwd) r ++ [name]) with
      | none => exact ⟨_, rfl⟩
      | some n =>
        cases n with
        | dir => exact absurd hx hloc
        | file d => exact ⟨_, rfl⟩
    obtain ⟨⟨l, fs2⟩, ho⟩ := ho
    rw [ho]

theorem writeToFilesystem_ok_or_panic {ε : Type} {cwd : Loc} {fs : FS} {w : FileWriter} :
    (w.writeToFilesystem cwd fs : Res ε Unit × FS).1 = .ok () ∨ (w.writeToFilesystem cwd fs : Res ε Unit × FS).1 = .panic := by
  unfold FileWriter.writeToFilesystem
  simp only []
  split
  · exact .inr rfl
  · split
    · split
      · exact .inl rfl
      · exact .inr rfl
    · exact .inr rfl

end RustBit
