/-
C82 for files whose paths are made of anything, and what follows from it for C54 and C118: from every state of the running program a page of any web
site can bring about that a file of its choosing is written to a place of its choosing.
-/
import Verif.Props.AnywhereRun
import Verif.Props.Request
import Verif.Props.Server

namespace RustBit
open Spec

/-! ### A torrent that has heard of enough peers can be finished, whatever its paths -/

/-- What paths and disk have to be like for the writer to survive, by the disk before the metadata were looked for. -/
structure Welcome (cwd : Loc) (infoHash : Bytes) (fs : FS) (info : Info) : Prop where
  receptive : Receptive cwd fs (listedFiles info) info.pieceLength
  off : ∀ k f, Touched (listedFiles info) info.pieceLength k f → place cwd f.path ≠ cwd ++ [b!"downloads"] ∧ ¬ Way cwd f.path (cacheLoc cwd infoHash)
  cache : ∀ f ∈ listedFiles info, place cwd f.path ≠ cacheLoc cwd infoHash

/-- The files of the torrent can be right at the same time, on this disk. -/
def Possible (cwd : Loc) (fs : FS) (info : Info) (d : Bytes) : Prop :=
  Agreeing cwd (listedFiles info) d ∧ SameLength cwd (listedFiles info) ∧ NoneLonger fs [] (placedFiles cwd (listedFiles info))

theorem finish_mail_anywhere {w : World} {infoHash : Bytes} {fs : FS} {info : Info} {d : Bytes} (hsha : ∀ b, (w.sha b).length = 20) (hlen : 2 < infoHash.length)
    (hget : Gettable w infoHash info fs) (hd : Describes w.sha info d) (hfit : Fits info d) (hpos : 0 < d.length) (hw : Welcome w.cwd infoHash fs info)
    {l : List PeerEndpoint} (hl : ∀ q ∈ l, ∃ bytes, q ∈ PeerEndpoint.fromBytes bytes) (h11 : 11 ≤ l.length) :
    ∃ t, Steps w { Sys.init infoHash fs with mail := l.map .found } t ∧
      peersReported t = peersReported { Sys.init infoHash fs with mail := l.map .found } ∧ t.writerUp = true ∧ t.torrent.info = some info ∧
      flight t = [] ∧ t.lost = [] ∧ t.ready = [] ∧ (∀ i, i < pieceCount d.length info.pieceLength → i ∈ t.written.map Ready.idx) ∧
      (FilesRight t.fs [] (placedFiles w.cwd (listedFiles info)) d ↔ Possible w.cwd fs info d) := by
  have hn : (pieceTotal w.build info : Res Unit Nat) = .ok (pieceCount d.length info.pieceLength) := pieceTotal_of hd hfit.length hpos
  have hcount : 0 < pieceCount d.length info.pieceLength := Nat.div_pos (by have := hd.pieceLength; omega) hd.pieceLength
  cases l with
  | nil => simp at h11
  | cons p l =>
    obtain ⟨t, h1, h2, h3, h4, h5, h6, h7⟩ := collect_mail hlen hget hn hl
    have hst := (announce_all (w := w) (infoHash := infoHash) (fs := fs) (p :: l) hl).trans h1
    obtain ⟨n, hk⟩ := among_known (among_of hst) h2
    have hn' := known_count hk hd hfit.length
    obtain ⟨u, e1, e2, e3, e4, e5, e6⟩ := start_mail (by rw [hn']; exact hcount) _ t rfl hk
      (by rw [h6, h5, List.length_map]; simp at h11; omega) (by omega)
    have hsu := hst.trans e1
    obtain ⟨v, f1, f2, f3, f4, f5, f6, f7, f8⟩ := can_end_anywhere hsha hd hfit hsu e3 e4 (by rw [e2, h3])
    have hg := f7 (e6 _ (h7 _))
    rcases C66_from_start_partial hlen hd hfit.length (hsu.trans f1) f2 f5 f6 hw.cache with ⟨r, hr, hne, -⟩ | ⟨g1, g2⟩
    · exact absurd (hg.2 r (List.mem_append_left _ hr)) hne
    · have hup := g1.mpr ⟨hw.receptive, hw.off⟩
      refine ⟨v, (h1.trans e1).trans f1, by rw [f8, e5, h4], hup, f2, f3, f4, f6 hup, fun i hi => ?_, g2 hup⟩
      have := f5 i hi
      simpa only [handed, f6 hup, List.append_nil] using this

/-! ### C82 -/

/-- C82, for any paths: whatever happened before, as long as the program runs, one tracker is left and one thread is not stuck, a request for a torrent whose metadata can be got
can be followed by steps after which all pieces are written, and the files are right, each in its place, just if that is possible at all: files in one place agree and no longer file was there. Missing: paths and
disks that the writer does not survive. -/
theorem C82_anywhere_partial {w : World} {Q : Info → Prop} {fs : FS} {n : Nat} {A : App} {info : Info} {d body infoHash : Bytes} {thread : Nat}
    (hrun : ASteps w Q (App.init fs n) A) (hQ : Q info) (hsha : ∀ b, (w.sha b).length = 20)
    (hlog : A.proc.log ≠ none) (hup : ∃ t ∈ A.trackers.trackers, t.up = true) (hb : thread < A.threads) (hf : thread ∉ A.stuck)
    (ha : addMagnet w.build body = (.ok, some infoHash)) (hget : Gettable w infoHash info A.proc.fs)
    (hd : Describes w.sha info d) (hfit : Fits info d) (hpos : 0 < d.length) (hw : Welcome w.cwd infoHash A.proc.fs info) :
    ∃ A' s, OnSteps w Q A A' ∧ A'.proc.log = A.proc.log ∧ A'.proc.slots[A.proc.slots.length]? = some s ∧ s.sys.torrent.infoHash = infoHash ∧
      s.sys.torrent.info = some info ∧ flight s.sys = [] ∧ s.sys.lost = [] ∧ s.sys.ready = [] ∧ s.parts = none ∧ s.sys.writerUp = true ∧
      (∀ i, i < pieceCount d.length info.pieceLength → i ∈ s.sys.written.map Ready.idx) ∧
      (FilesRight A'.proc.fs [] (placedFiles w.cwd (listedFiles info)) d ↔ Possible w.cwd A.proc.fs info d) ∧
      (∀ (j : Nat) (x : Slot), A.proc.slots[j]? = some x → ∃ y l, A'.proc.slots[j]? = some y ∧ Delivered x y l) := by
  have hinv := ainv_steps hrun (ainv_init fs n)
  obtain ⟨A2, y, l, s3, c1, c2, c3, c4, c5, c6, c7, d1, ⟨d2, fs', d3⟩, h11, -, hpeers, hothers⟩ :=
    request_heard hinv (holds_steps hrun (fun x hx => by cases hx)) hlog hup hb hf ha
  generalize hk : A.proc.slots.length = k at c6 d1 ⊢
  have hinv3 := ainv_steps s3.steps hinv
  have hQ3 := (show ∀ x ∈ A2.proc.slots, ∀ i, x.sys.torrent.info = some i → Q i by
    cases s3 with
    | refl => exact holds_steps hrun (fun x hx => by cases hx)
    | tail _ _ hq => exact hq)
  have hfree : A2.Free k := by
    refine ⟨thread, ?_, by rw [c3]; exact hf⟩
    have := hinv.home
    rw [c5, List.getElem?_append_right (by omega), this, hk, Nat.sub_self]
    rfl
  have hlen : 2 < infoHash.length := by
    have := addMagnet_length ha
    omega
  obtain ⟨v, e1, e2, e3, e4, e5, e6, e7, e8, e9⟩ := finish_mail_anywhere hsha hlen hget hd hfit hpos hw hpeers h11
  have hat : At A2.proc k { Sys.init infoHash A.proc.fs with mail := l.map .found } := by
    obtain ⟨ys, yp⟩ := y
    simp only [] at d2 d3
    refine ⟨ys, by rw [d1, d2], ?_⟩
    rw [d3]
    simp only [c2]
    rfl
  obtain ⟨P', g1, ⟨z, g2, rfl⟩, g3, g4, g5⟩ := alift_steps (w := w) (Q := Q) (A := A2) (by rw [c1]; exact hlog) hfree
    (among_of (announce_all l hpeers)) hat e1 e2 e3 hQ3 (fun i hi => by rw [e4] at hi; cases hi; exact hQ)
  have s4 := s3.trans g1
  refine ⟨_, ⟨z, none⟩, s4, by rw [← c1]; exact g3, g2, ?_, e4, e5, e6, e7, rfl, e3, e8, e9, fun j x hj => ?_⟩
  rotate_left
  · obtain ⟨y', l', r1, r2⟩ := hothers j x hj
    have hlt := (List.getElem?_eq_some_iff.mp hj).1
    exact ⟨y', l', (g5 j (by omega)).trans r1, r2⟩
  have hfin := ainv_steps s4.steps hinv
  have h1 := hfin.added k
  have h2 := hinv3.added k
  simp only [g2, d1, Option.map_some] at h1 h2
  rw [h1, Option.some.injEq, Registered.mk.injEq] at h2
  rw [h2.1, d3]
  rfl

/-! ### Any file, anywhere -/

/-- The absolute path of a location, as text. -/
def absText (l : Loc) : Bytes := c!"/" :: pathText l

theorem parse_absText {l : Loc} (h : Plain l) : PathBuf.parse (pathText [absText l]) = ⟨true, l, false⟩ := by
  have h1 := parse_plain l h
  have e : pathText [absText l] = absText l := by simp [pathText]
  have hs : segments (absText l) = [] :: segments (joinPath l) := by
    rw [joinPath_text]
    exact segments_append [] _ (by simp)
  rw [e]
  unfold PathBuf.parse at h1 ⊢
  rw [hs]
  injection h1 with _ h2 h3
  have e2 : ([] :: segments (joinPath l)).filter (fun c => decide (c ≠ [] ∧ c ≠ b!".")) = l := by
    rw [List.filter_cons_of_neg (by simp)]
    exact h2
  have e3 : ([] :: segments (joinPath l)).getLast? = (segments (joinPath l)).getLast? := by
    cases hq : segments (joinPath l) with
    | nil => exact absurd hq (segments_ne_nil _)
    | cons a t => rw [List.getLast?_cons_cons]
  rw [e2, e3]
  exact congrArg (PathBuf.mk true l) h3

theorem lex_names : ∀ (l : Loc) (q : List Bytes), (∀ x ∈ q, x ≠ b!"..") → lex l q = l ++ q := by
  intro l q
  induction q generalizing l with
  | nil => intro _; simp [lex]
  | cons c q ih =>
    intro hq
    rw [show c :: q = [] ++ [c] ++ q by simp, lex_append, lex_snoc (hq c (by simp)), ih _ (fun x hx => hq x (List.mem_cons_of_mem _ hx))]
    simp [lex]

theorem place_abs {cwd l : Loc} (h : Plain l) : place cwd [absText l] = l := by
  rw [place, parse_absText h, PathBuf.base]
  simp only [if_true]
  rw [lex_names [] l (fun x hx => (h.2 x hx).2.2.1), List.nil_append]

theorem way_abs {cwd l x : Loc} (h : Plain l) (hw : Way cwd [absText l] x) : x <+: l ∧ x ≠ l := by
  obtain ⟨q, c, n, r, e, -, rfl⟩ := hw
  rw [parse_absText h] at e ⊢
  simp only [PathBuf.base, if_true] at e ⊢
  have hn : ∀ y ∈ q ++ [c], y ≠ b!".." := by
    intro y hy
    refine (h.2 y ?_).2.2.1
    rw [e]
    simp only [List.mem_append, List.mem_cons, List.not_mem_nil, or_false] at hy ⊢
    rcases hy with hy | hy
    · exact .inl hy
    · exact .inr (.inl hy)
  rw [lex_names [] _ hn, List.nil_append, e]
  refine ⟨⟨n :: r, by simp⟩, fun he => ?_⟩
  have := congrArg List.length he
  simp at this

/-- Metadata of one file in one piece. -/
def oneFile (sha : Bytes → Bytes) (path d : Bytes) : Info := ⟨none, some d.length, path, d.length, sha d⟩

/-- The document of these metadata. -/
def oneFileDoc (sha : Bytes → Bytes) (path d : Bytes) : Bytes :=
  100 :: ((encBytes b!"length" ++ encUsize d.length) ++ ((encBytes b!"name" ++ encBytes path) ++
    ((encBytes b!"piece length" ++ encUsize d.length) ++ ((encBytes b!"pieces" ++ encBytes (sha d)) ++ [])))) ++ [101]

theorem oneFile_doc (sha : Bytes → Bytes) (path d : Bytes) : IsBencode (infoDict (oneFile sha path d)) (oneFileDoc sha path d) :=
  .dict (.cons (isStr_encBytes _) (isBencode_encUsize _) (.cons (isStr_encBytes _) (.str (isStr_encBytes _))
    (.cons (isStr_encBytes _) (isBencode_encUsize _) (.cons (isStr_encBytes _) (.str (isStr_encBytes _)) .nil))))

theorem oneFile_doc_length (sha : Bytes → Bytes) (hsha : ∀ b, (sha b).length = 20) (path d : Bytes) (hp : path.length < 2 ^ 61) (hd : d.length < 2 ^ 61) :
    (oneFileDoc sha path d).length < 2 ^ 64 := by
  have h1 := decimal_length_le d.length
  have h2 := decimal_length_le path.length
  have e1 : (encBytes b!"length").length = 8 := by decide +kernel
  have e2 : (encBytes b!"name").length = 6 := by decide +kernel
  have e3 : (encBytes b!"piece length").length = 15 := by decide +kernel
  have e4 : (encBytes b!"pieces").length = 8 := by decide +kernel
  have e5 : (encBytes (sha d)).length = 23 := by
    rw [encBytes, hsha]
    simp only [List.length_append, List.length_cons, hsha]
    rw [show (decimal 20).length = 2 by decide +kernel]
  simp only [oneFileDoc, List.length_append, List.length_cons, List.length_nil, e1, e2, e3, e4, e5]
  simp only [encBytes, encUsize, List.length_append, List.length_cons, List.length_nil]
  omega

theorem oneFile_count {d : Bytes} (hd : d ≠ []) : pieceCount d.length d.length = 1 := by
  have := List.length_pos_iff.mpr hd
  rw [pieceCount, show d.length + d.length - 1 = d.length - 1 + d.length by omega, Nat.add_div_right _ this, Nat.div_eq_of_lt (by omega)]

theorem oneFile_describes {sha : Bytes → Bytes} (hsha : ∀ b, (sha b).length = 20) (path : Bytes) {d : Bytes} (hd : d ≠ []) :
    Describes sha (oneFile sha path d) d where
  total := by show d.length + 0 = d.length; omega
  pieceLength := List.length_pos_iff.mpr hd
  hashes := by
    intro k hk
    have hk : k < pieceCount d.length d.length := hk
    rw [oneFile_count hd] at hk
    have : k = 0 := by omega
    subst this
    show ((sha d).drop 0).take 20 = sha ((d.drop (0 * d.length)).take d.length)
    rw [Nat.zero_mul, List.drop_zero, List.drop_zero, List.take_length, List.take_of_length_le (by rw [hsha]; omega)]

theorem oneFile_welcome {sha : Bytes → Bytes} {cwd l : Loc} {hash d : Bytes} {fs : FS} (hl : Plain l) (hoff : ¬ cwd ++ [b!"downloads"] <+: l)
    (hdirs : ∀ q, q <+: l → q ≠ l → ∀ c, fs q ≠ some (.file c)) (hnd : fs l ≠ some .dir) :
    Welcome cwd hash fs (oneFile sha (absText l) d) := by
  have one : ∀ k f, Touched (listedFiles (oneFile sha (absText l) d)) (oneFile sha (absText l) d).pieceLength k f → f.path = [absText l] := by
    intro k f h
    have := List.mem_of_getElem? h.1
    rw [List.mem_singleton.mp this]
    rfl
  have hcl : ∀ x, x <+: l → x ≠ cacheLoc cwd hash := by
    rintro x hx rfl
    exact hoff (List.IsPrefix.trans ⟨[percentEncode hash], by simp [cacheLoc]⟩ hx)
  refine ⟨⟨?_, ?_, ?_, ?_⟩, ?_, ?_⟩
  · intro k f h
    rw [one k f h, Servable, parse_absText hl]
    refine ⟨⟨l.dropLast, l.getLast hl.1, (List.dropLast_concat_getLast hl.1).symm, (hl.2 _ (List.getLast_mem _)).2.2.1⟩, rfl, fun x hx => (hl.2 x hx).2.2.2.2⟩
  · intro j k f g hf hg hw
    rw [one j f hf, one k g hg] at hw
    exact (way_abs hl hw).2 (place_abs hl)
  · intro k f h x c hw
    rw [one k f h] at hw
    exact hdirs x (way_abs hl hw).1 (way_abs hl hw).2 c
  · intro k f h
    rw [one k f h, place_abs hl]
    exact hnd
  · intro k f h
    rw [one k f h, place_abs hl]
    refine ⟨fun e => hoff (by rw [e]; exact List.prefix_rfl), fun hw => hcl _ (way_abs hl hw).1 rfl⟩
  · intro f hf
    rw [List.mem_singleton.mp hf]
    show place cwd [absText l] ≠ _
    rw [place_abs hl]
    exact hcl l List.prefix_rfl

/-- A torrent of one file, with all of it written. -/
theorem oneFile_finished {w : World} {Q : Info → Prop} {fs : FS} {n : Nat} {A : App} {body hash : Bytes} {thread : Nat}
    (hrun : ASteps w Q (App.init fs n) A) (hsha : ∀ b, (w.sha b).length = 20)
    (hlog : A.proc.log ≠ none) (hup : ∃ t ∈ A.trackers.trackers, t.up = true) (hb : thread < A.threads) (hf : thread ∉ A.stuck)
    (ha : addMagnet w.build body = (.ok, some hash)) (hh : hash.length = 20) (hnc : NotCached A.proc.fs w.cwd hash)
    (l : Loc) (hl : Plain l) (ht : validUtf8 (pathText l) = true) (hpl : (pathText l).length < 2 ^ 60) (hoff : ¬ w.cwd ++ [b!"downloads"] <+: l)
    (d : Bytes) (hd : d ≠ []) (hd61 : d.length < 2 ^ 61) (hQ : Q (oneFile w.sha (absText l) d))
    (hdirs : ∀ q, q <+: l → q ≠ l → ∀ c, A.proc.fs q ≠ some (.file c)) (hnd : A.proc.fs l ≠ some .dir)
    (hnl : ∀ c, readFile A.proc.fs l = some c → c.length ≤ d.length) :
    ∃ A' s, OnSteps w Q A A' ∧ A'.proc.slots[A.proc.slots.length]? = some s ∧ s.sys.torrent.infoHash = hash ∧
      s.sys.torrent.info = some (oneFile w.sha (absText l) d) ∧ s.sys.writerUp = true ∧ 0 ∈ s.sys.written.map Ready.idx ∧ readFile A'.proc.fs l = some d := by
  have hpos := List.length_pos_iff.mpr hd
  have hal : (absText l).length < 2 ^ 61 := by show (pathText l).length + 1 < 2 ^ 61; omega
  have hserve := metadata_serves w.build (oneFile_doc w.sha (absText l) d)
    ⟨by show (absText l).length < 2 ^ 64; omega, by show (w.sha d).length < 2 ^ 64; rw [hsha]; decide, by show d.length < 2 ^ 64; omega,
      (by intro n h; cases h; show d.length < 2 ^ 64; omega), (by intro fs h; cases h)⟩
    ⟨⟨by show absText l ≠ []; simp [absText], by show validUtf8 (c!"/" :: pathText l) = true; rw [validUtf8_cons_ascii _ (by decide)]; exact ht⟩,
      (by
        show w.sha d ≠ []
        intro h
        have := hsha d
        rw [h] at this
        cases this), by intro fs h; cases h⟩
    (oneFile_doc_length w.sha hsha _ _ hal hd61) hh []
  obtain ⟨A', s, h1, -, h3, h4, h5, -, -, -, -, h9, h10, h11, -⟩ := C82_anywhere_partial hrun hQ hsha hlog hup hb hf ha (.inl ⟨hnc, hserve⟩)
    (oneFile_describes hsha (absText l) hd)
    ⟨by omega, by show pieceCount d.length d.length ≤ 2 ^ 32; rw [oneFile_count hd]; decide,
      by show d.length * pieceCount d.length d.length < 2 ^ 64; rw [oneFile_count hd]; omega⟩ hpos
    (oneFile_welcome hl hoff hdirs hnd)
  refine ⟨A', s, h1, h3, h4, h5, h9, h10 0 (by show 0 < pieceCount d.length d.length; rw [oneFile_count hd]; decide), ?_⟩
  have hr := h11.mpr ⟨?_, ?_, ?_⟩
  · have := hr 0 ⟨place w.cwd [absText l], d.length⟩ rfl hpos
    rw [place_abs hl] at this
    rw [List.nil_append] at this
    rw [this]
    show some ((d.drop 0).take d.length) = some d
    rw [List.drop_zero, List.take_length]
  · intro i j f g hi hj _ x _ _
    have e : ∀ (i : Nat) (f : File), (listedFiles (oneFile w.sha (absText l) d))[i]? = some f → i = 0 := by
      intro i f h
      have := (List.getElem?_eq_some_iff.mp h).1
      simp only [listedFiles, oneFile, List.length_singleton] at this
      omega
    rw [e i f hi, e j g hj]
  · intro f hf g hg _ _ _
    rw [List.mem_singleton.mp hf, List.mem_singleton.mp hg]
  · intro g hg _ c hc
    have hg' : g = ⟨place w.cwd [absText l], d.length⟩ := List.mem_singleton.mp hg
    rw [hg', place_abs hl] at hc
    rw [hg']
    exact hnl c hc

/-- The program-wide refutation of C54: whatever happened before, as long as the program runs, one tracker is left and one thread is not stuck, then for every location on the disk outside of `downloads` (whether below the
working directory or not) and every content, a torrent can be requested, its metadata and content being served by peers without any collision, so that in the end this content is in the file at this location, if it can be there
at all: no file where the directories should be, no directory and no longer file in its place. -/
theorem C54_refuted_program {w : World} {Q : Info → Prop} {fs : FS} {n : Nat} {A : App} {body hash : Bytes} {thread : Nat}
    (hrun : ASteps w Q (App.init fs n) A) (hsha : ∀ b, (w.sha b).length = 20)
    (hlog : A.proc.log ≠ none) (hup : ∃ t ∈ A.trackers.trackers, t.up = true) (hb : thread < A.threads) (hf : thread ∉ A.stuck)
    (ha : addMagnet w.build body = (.ok, some hash)) (hh : hash.length = 20) (hnc : NotCached A.proc.fs w.cwd hash)
    (l : Loc) (hl : Plain l) (ht : validUtf8 (pathText l) = true) (hpl : (pathText l).length < 2 ^ 60) (hoff : ¬ w.cwd ++ [b!"downloads"] <+: l)
    (d : Bytes) (hd : d ≠ []) (hd61 : d.length < 2 ^ 61) (hQ : Q (oneFile w.sha (absText l) d))
    (hdirs : ∀ q, q <+: l → q ≠ l → ∀ c, A.proc.fs q ≠ some (.file c)) (hnd : A.proc.fs l ≠ some .dir)
    (hnl : ∀ c, readFile A.proc.fs l = some c → c.length ≤ d.length) :
    ∃ A' s, OnSteps w Q A A' ∧ A'.proc.slots[A.proc.slots.length]? = some s ∧ s.sys.torrent.infoHash = hash ∧
      s.sys.torrent.info = some (oneFile w.sha (absText l) d) ∧ readFile A'.proc.fs l = some d := by
  obtain ⟨A', s, h1, h2, h3, h4, -, -, h5⟩ := oneFile_finished hrun hsha hlog hup hb hf ha hh hnc l hl ht hpl hoff d hd hd61 hQ hdirs hnd hnl
  exact ⟨A', s, h1, h2, h3, h4, h5⟩

/-- C118, what a page of a web site can do: bring about, at every moment of a run with one free thread and one tracker left, that any content is written to any place outside of `downloads` (if it can be there at all), with the help
of peers that serve it. -/
theorem C118_refuted_files (lib : Actix) {w : World} {fs : FS} {n : Nat} {A : App} {thread : Nat}
    (hrun : ASteps w (fun _ => True) (App.init fs n) A) (hsha : ∀ b, (w.sha b).length = 20)
    (hlog : A.proc.log ≠ none) (hup : ∃ t ∈ A.trackers.trackers, t.up = true) (hb : thread < A.threads) (hf : thread ∉ A.stuck)
    (origin hash : Bytes) (hh : hash.length = 20) (hnc : NotCached A.proc.fs w.cwd hash)
    (l : Loc) (hl : Plain l) (ht : validUtf8 (pathText l) = true) (hpl : (pathText l).length < 2 ^ 60) (hoff : ¬ w.cwd ++ [b!"downloads"] <+: l)
    (d : Bytes) (hd : d ≠ []) (hd61 : d.length < 2 ^ 61)
    (hdirs : ∀ q, q <+: l → q ≠ l → ∀ c, A.proc.fs q ≠ some (.file c)) (hnd : A.proc.fs l ≠ some .dir)
    (hnl : ∀ c, readFile A.proc.fs l = some c → c.length ≤ d.length) :
    ∃ r A' s, FromPage origin r ∧ serve lib w.build r = (.handled .ok, some hash) ∧ OnSteps w (fun _ => True) A A' ∧
      A'.proc.slots[A.proc.slots.length]? = some s ∧ s.sys.torrent.infoHash = hash ∧ readFile A'.proc.fs l = some d := by
  obtain ⟨digits, hx⟩ := hex_exists hash
  have ha := C71_hex_partial w.build hash digits [] hh hx rfl (by simp)
  obtain ⟨A', s, h1, h2, h3, -, h5⟩ := C54_refuted_program hrun hsha hlog hup hb hf ha hh hnc l hl ht hpl hoff d hd hd61 trivial hdirs hnd hnl
  exact ⟨_, A', s, pageRequest_from origin (btihPrefix ++ digits ++ c!"&" :: []), by rw [pageRequest_served, ha], h1, h2, h3, h5⟩

/-- Non-vacuity: in every world (with 20-byte hashes), whose working directory is not the root, a page can have `/a` written from an empty disk. -/
example (lib : Actix) (w : World) (hsha : ∀ b, (w.sha b).length = 20) (hcwd : w.cwd ≠ []) : ∃ r A, FromPage b!"https://example.org" r ∧
    serve lib w.build r = (.handled .ok, some (List.replicate 20 7)) ∧ ASteps w (fun _ => True) (App.init (fun _ => none) 1) A ∧ readFile A.proc.fs [b!"a"] = some [1, 2, 3] := by
  obtain ⟨fs', h1, h2, h3⟩ := started w (fun _ => True) (fs := fun _ => none) 1 (by simp)
  have ne : ∀ x : Loc, x.length ≤ 1 → x ≠ w.cwd ++ [b!"test.log"] := by
    rintro x hx rfl
    have := List.length_pos_iff.mpr hcwd
    rw [List.length_append, List.length_singleton] at hx
    omega
  have ha : fs' [b!"a"] = none := h3 _ (ne _ (by simp))
  obtain ⟨r, A', s, g1, g2, g3, -, -, g4⟩ := C118_refuted_files lib (thread := 0) h1 hsha (by simp) init_up (by show 0 < 1; decide) (by simp)
    b!"https://example.org" (List.replicate 20 7) (by simp) ⟨.inr (h3 _ (other_name (by decide) [])), h3 _ (other_name (by decide) _)⟩ [b!"a"]
    ⟨by simp, by decide⟩ (by decide +kernel) (by decide) (by
      rintro ⟨t, ht⟩
      have e := congrArg List.length ht
      have := List.length_pos_iff.mpr hcwd
      simp only [List.length_append, List.length_singleton] at e
      omega) [1, 2, 3] (by simp) (by decide)
    (by
      intro q hq hne c
      have hl : q.length ≤ 1 := hq.length_le
      rw [show (App.proc _).fs q = fs' q from rfl, h3 q (ne q hl)]
      simp)
    (by rw [show (App.proc _).fs [b!"a"] = fs' [b!"a"] from rfl, ha]; simp)
    (by
      intro c hc
      have : readFile fs' [b!"a"] = some c := hc
      rw [readFile, ha] at this
      cases this)
  exact ⟨r, A', g1, g2, h1.trans g3.steps, g4⟩

end RustBit
