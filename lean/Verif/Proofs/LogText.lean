import Verif.Model.LogText
import Verif.Spec.LogText
import Verif.Proofs.Text
import Verif.Proofs.Tracker

namespace RustBit
open Spec

/-! ### Lines -/

theorem oneLine_append {a b : Bytes} (ha : OneLine a) (hb : OneLine b) : OneLine (a ++ b) := by
  unfold OneLine at *
  simp only [List.mem_append]
  exact ⟨fun h => h.elim ha.1 hb.1, fun h => h.elim ha.2 hb.2⟩

theorem oneLine_digits {a : Bytes} (h : ∀ d ∈ a, isDigit d = true) : OneLine a :=
  ⟨fun hm => absurd (h _ hm) (by decide), fun hm => absurd (h _ hm) (by decide)⟩

theorem oneLine_decimal (n : Nat) : OneLine (decimal n) := oneLine_digits (decimal_digit n)

theorem oneLine_commas {l : List Bytes} (h : ∀ x ∈ l, OneLine x) : OneLine (commas l) := by
  match l with
  | [] => exact ⟨by simp [commas], by simp [commas]⟩
  | [x] => exact h x (by simp)
  | x :: y :: t =>
    rw [commas]
    exact oneLine_append (oneLine_append (h x (by simp)) (by unfold OneLine; decide)) (oneLine_commas (fun z hz => h z (List.mem_cons_of_mem _ hz)))

theorem oneLine_flatMap {α : Type} {l : List α} {f : α → Bytes} (h : ∀ x ∈ l, OneLine (f x)) : OneLine (l.flatMap f) := by
  constructor
  · intro hm
    obtain ⟨x, hx, hm⟩ := List.mem_flatMap.mp hm
    exact (h x hx).1 hm
  · intro hm
    obtain ⟨x, hx, hm⟩ := List.mem_flatMap.mp hm
    exact (h x hx).2 hm

/-- The bytes of a character, if one of them is in the range of ASCII, are this byte, and it is the code point. -/
theorem charAt_ascii (b : UInt8) (t : Bytes) :
    (b < 0x80 → charAt b t = (b.toNat, 0)) ∧ ∀ x ∈ t.take (charAt b t).2, 0x80 ≤ x.toNat := by
  constructor
  · intro h
    unfold charAt; rw [if_pos h]
  · have hc : ∀ c, isCont c = true → 0x80 ≤ c.toNat := fun c h => ((isCont_iff c).mp h).1
    unfold charAt
    intro x hx
    split at hx
    · simp at hx
    · split at hx
      · simp at hx
      · rename_i c t2
        split at hx
        · rename_i h
          simp only [Bool.and_eq_true] at h
          simp only [List.take_succ_cons, List.take_zero, List.mem_singleton] at hx
          subst hx
          exact hc _ h.2
        · split at hx
          · simp at hx
          · rename_i d t3
            split at hx
            · rename_i h
              simp only [Bool.and_eq_true, utf8Lead3_iff] at h
              simp only [List.take_succ_cons, List.take_zero, List.mem_cons, List.not_mem_nil, or_false] at hx
              rcases hx with rfl | rfl
              · exact h.1.2.2.1
              · exact hc _ h.2
            · split at hx
              · simp at hx
              · rename_i e t4
                split at hx
                · rename_i h
                  simp only [Bool.and_eq_true, utf8Lead4_iff] at h
                  simp only [List.take_succ_cons, List.take_zero, List.mem_cons, List.not_mem_nil, or_false] at hx
                  rcases hx with rfl | rfl | rfl
                  · exact h.1.1.2.2.1
                  · exact hc _ h.1.2
                  · exact hc _ h.2
                · simp at hx

theorem charsF_ascii : ∀ (f : Nat) (s : Bytes), ∀ c ∈ charsF f s, ∀ x ∈ c.2, x < 0x80 → c.1 = x.toNat
  | 0, _, c, hc, _, _, _ => by rw [charsF] at hc; cases hc
  | _ + 1, [], c, hc, _, _, _ => by rw [charsF] at hc; cases hc; simp
  | f + 1, b :: t, c, hc, x, hx, h => by
    rw [charsF] at hc
    rcases List.mem_cons.mp hc with rfl | hc
    · have ⟨h1, h2⟩ := charAt_ascii b t
      rcases List.mem_cons.mp hx with rfl | hx
      · rw [h1 h]
      · have := h2 x hx
        rw [lt80_iff] at h
        omega
    · exact charsF_ascii f _ c hc x hx h

theorem hexLower_plain (n : Nat) (h : n < 16) : hexLower n ≠ 10 ∧ hexLower n ≠ 13 ∧ hexLower n ≠ 125 := by
  have : ∀ n : Fin 16, hexLower n.1 ≠ 10 ∧ hexLower n.1 ≠ 13 ∧ hexLower n.1 ≠ 125 := by decide +kernel
  exact this ⟨n, h⟩

theorem hexRev_plain : ∀ (f n : Nat), ∀ x ∈ hexRev f n, x ≠ 10 ∧ x ≠ 13 ∧ x ≠ 125
  | 0, _, x, hx => by rw [hexRev] at hx; cases hx
  | f + 1, n, x, hx => by
    rw [hexRev] at hx
    rcases List.mem_cons.mp hx with rfl | hx
    · exact hexLower_plain _ (by omega)
    · split at hx
      · cases hx
      · exact hexRev_plain f _ x hx

theorem oneLine_escapeUnicode (n : Nat) : OneLine (escapeUnicode n) := by
  unfold escapeUnicode
  refine oneLine_append (oneLine_append (a := b!"\\u{") (by unfold OneLine; decide) ?_) (by unfold OneLine; decide)
  exact ⟨fun h => (hexRev_plain _ _ _ (List.mem_reverse.mp h)).1 rfl, fun h => (hexRev_plain _ _ _ (List.mem_reverse.mp h)).2.1 rfl⟩

theorem oneLine_escapeDebug (shown : Nat → Bool) {s : Bytes} {c : Nat × Bytes} (hc : c ∈ chars s) : OneLine (escapeDebug shown c) := by
  have ha := charsF_ascii _ _ c hc
  unfold escapeDebug
  repeat' split
  all_goals first | exact oneLine_escapeUnicode _ | (unfold OneLine; decide) | skip
  all_goals
    rename_i h0 h9 h10 h13 h34 h92 _ _
    exact ⟨fun h => h10 (ha 10 h (by decide)), fun h => h13 (ha 13 h (by decide))⟩

theorem oneLine_debugStr (shown : Nat → Bool) (s : Bytes) : OneLine (debugStr shown s) := by
  unfold debugStr
  refine oneLine_append (a := [34]) (by unfold OneLine; decide) (oneLine_append (oneLine_flatMap fun c hc => oneLine_escapeDebug shown hc) (by unfold OneLine; decide))

theorem oneLine_debugBytes (b : Bytes) : OneLine (debugBytes b) := by
  unfold debugBytes
  refine oneLine_append (oneLine_append (a := b!"[") (by unfold OneLine; decide) (oneLine_commas fun x hx => ?_)) (by unfold OneLine; decide)
  obtain ⟨y, -, rfl⟩ := List.mem_map.mp hx
  exact oneLine_decimal _

/-- A proof by parts: literals are evaluated. -/
macro "one_line" : tactic => `(tactic| (
  repeat' with_reducible apply oneLine_append
  all_goals first
    | with_reducible assumption
    | with_reducible exact oneLine_decimal _
    | with_reducible exact oneLine_debugStr _ _
    | with_reducible exact oneLine_debugBytes _
    | (unfold OneLine; decide)))

mutual
theorem oneLine_metainfo (shown : Nat → Bool) : (v : Metainfo) → OneLine (v.debug shown)
  | .integer n => by rw [Metainfo.debug]; one_line
  | .list l => by
    rw [Metainfo.debug]
    have := oneLine_commas (oneLine_elems shown l)
    one_line
  | .string s => by rw [Metainfo.debug]; one_line
  | .dictionary d => by
    rw [Metainfo.debug]
    have := oneLine_commas (oneLine_entries shown d)
    one_line
  | .nothing => by rw [Metainfo.debug]; one_line
theorem oneLine_elems (shown : Nat → Bool) : (l : List Metainfo) → ∀ x ∈ debugElems shown l, OneLine x
  | [], x, hx => by rw [debugElems] at hx; cases hx
  | v :: t, x, hx => by
    rw [debugElems] at hx
    rcases List.mem_cons.mp hx with rfl | hx
    · exact oneLine_metainfo shown v
    · exact oneLine_elems shown t x hx
theorem oneLine_entries (shown : Nat → Bool) : (d : List (Bytes × Metainfo)) → ∀ x ∈ debugEntries shown d, OneLine x
  | [], x, hx => by rw [debugEntries] at hx; cases hx
  | (k, v) :: t, x, hx => by
    rw [debugEntries] at hx
    rcases List.mem_cons.mp hx with rfl | hx
    · have := oneLine_metainfo shown v
      one_line
    · exact oneLine_entries shown t x hx
end

theorem oneLine_option {α : Type} (o : Option α) (f : α → Bytes) (h : ∀ a, OneLine (f a)) : OneLine (debugOption (o.map f)) := by
  cases o with
  | none => show OneLine b!"None"; unfold OneLine; decide
  | some a =>
    show OneLine (b!"Some(" ++ f a ++ b!")")
    have := h a
    one_line

theorem oneLine_content (shown : Nat → Bool) (c : ContentType) : OneLine (c.debug shown) := by
  cases c with
  | request r => rw [ContentType.debug]; one_line
  | extension e =>
    rw [ContentType.debug]
    have h1 := oneLine_option e.msgType decimal oneLine_decimal
    have h2 := oneLine_option e.metadataSize decimal oneLine_decimal
    have h3 := oneLine_option e.piece decimal oneLine_decimal
    have h4 : OneLine (commas (e.extensions.map fun x => debugStr shown x.1 ++ b!": " ++ decimal x.2.toNat)) := by
      refine oneLine_commas fun x hx => ?_
      obtain ⟨y, -, rfl⟩ := List.mem_map.mp hx
      one_line
    one_line
  | interested => rw [ContentType.debug]; one_line
  | bitfield b => rw [ContentType.debug]; one_line
  | handshake h => rw [ContentType.debug]; one_line
  | nothing => rw [ContentType.debug]; one_line

theorem oneLine_message (shown : Nat → Bool) (m : Message) : OneLine (m.debug shown) := by
  unfold Message.debug
  have := oneLine_content shown m.content
  one_line

theorem oneLine_kind (k : KindName) : OneLine k.name :=
  ⟨fun h => absurd (k.letters _ h) (by decide), fun h => absurd (k.letters _ h) (by decide)⟩

theorem oneLine_io (shown : Nat → Bool) (e : IoError) : OneLine (e.debug shown) := by
  cases e with
  | os code kind message =>
    rw [IoError.debug]
    have := oneLine_kind kind
    one_line
  | simple kind message =>
    rw [IoError.debug]
    have := oneLine_kind kind
    one_line
  | json message line column => rw [IoError.debug]; one_line

theorem oneLine_url (shown : Nat → Bool) (u : UrlView) : OneLine (u.debug shown) := by
  unfold UrlView.debug
  have h1 := oneLine_option u.password (debugStr shown) (oneLine_debugStr shown)
  have h2 := oneLine_option u.query (debugStr shown) (oneLine_debugStr shown)
  have h3 := oneLine_option u.fragment (debugStr shown) (oneLine_debugStr shown)
  have h4 := oneLine_option u.port decimal oneLine_decimal
  have h5 := oneLine_option u.host (UrlHost.debug shown) (fun h => by cases h <;> rw [UrlHost.debug] <;> one_line)
  have h6 : OneLine (if u.cannotBeABase then b!"true" else b!"false") := by split <;> (unfold OneLine; decide)
  one_line

theorem oneLine_args (shown : Nat → Bool) (r : LogRec) : OneLine (r.args shown) := by
  cases r with
  | peersFound n tracker => rw [LogRec.args]; have := oneLine_url shown tracker; one_line
  | gotMessage p id =>
    rw [LogRec.args]
    have : OneLine (LogRec.messageName id) := by unfold LogRec.messageName; repeat' split
                                                 all_goals (unfold OneLine; decide)
    one_line
  | notManaged p m => rw [LogRec.args]; have := oneLine_message shown m; one_line
  | writeFailed err b => rw [LogRec.args]; have := oneLine_io shown err; one_line
  | noExtensionValue v => rw [LogRec.args]; have := oneLine_metainfo shown v; one_line
  | cacheUnreadable err p => rw [LogRec.args]; have := oneLine_io shown err; one_line
  | cacheUnsaved err p => rw [LogRec.args]; have := oneLine_io shown err; one_line
  | _ => rw [LogRec.args]; one_line

theorem oneLine_pad (k n : Nat) : OneLine (padDecimal k n) := by
  unfold padDecimal
  refine oneLine_append ?_ (oneLine_decimal n)
  exact ⟨fun h => absurd (List.eq_of_mem_replicate h) (by decide), fun h => absurd (List.eq_of_mem_replicate h) (by decide)⟩

theorem oneLine_time (t : LogTime) : OneLine t.text := by
  unfold LogTime.text
  have := oneLine_pad
  repeat' with_reducible apply oneLine_append
  all_goals first | exact oneLine_pad _ _ | (unfold OneLine; decide)

/-- The line of a record without its end. -/
theorem line_split (shown : Nat → Bool) (t : LogTime) (r : LogRec) : ∃ l, r.line shown t = l ++ [10] ∧ OneLine l := by
  refine ⟨_, rfl, ?_⟩
  have h1 := oneLine_args shown r
  have h2 := oneLine_time t
  have h3 : OneLine r.place.1 := by cases r <;> (simp only [LogRec.place]; unfold OneLine; decide)
  have h4 : OneLine r.level := by cases r <;> (simp only [LogRec.level]; unfold OneLine; decide)
  one_line

/-- A file can be cut into lines in one way only. -/
theorem isLines_unique {file : Bytes} {ls ls' : List Bytes} {rest rest' : Bytes} (h : IsLines file ls rest) (h' : IsLines file ls' rest') :
    ls = ls' ∧ rest = rest' := by
  obtain ⟨e, h1, h2⟩ := h
  obtain ⟨e', h1', h2'⟩ := h'
  have key : ∀ (a b x y : Bytes), 10 ∉ a → 10 ∉ b → a ++ 10 :: x = b ++ 10 :: y → a = b ∧ x = y := by
    intro a
    induction a with
    | nil =>
      intro b x y _ hb he
      cases b with
      | nil => exact ⟨rfl, by simpa using he⟩
      | cons c b => simp only [List.nil_append, List.cons_append, List.cons.injEq] at he; rw [← he.1] at hb; simp at hb
    | cons d a ih =>
      intro b x y ha hb he
      cases b with
      | nil => simp only [List.nil_append, List.cons_append, List.cons.injEq] at he; rw [he.1] at ha; simp at ha
      | cons c b =>
        simp only [List.cons_append, List.cons.injEq] at he
        obtain ⟨h1, h2⟩ := ih b x y (fun h => ha (List.mem_cons_of_mem _ h)) (fun h => hb (List.mem_cons_of_mem _ h)) he.2
        exact ⟨by rw [he.1, h1], h2⟩
  subst e
  induction ls generalizing ls' with
  | nil =>
    cases ls' with
    | nil => simpa using e'
    | cons l ls' =>
      simp only [List.map_nil, List.flatten_nil, List.nil_append, List.map_cons, List.flatten_cons, List.append_assoc] at e'
      rw [e'] at h2
      simp at h2
  | cons l ls ih =>
    cases ls' with
    | nil =>
      simp only [List.map_nil, List.flatten_nil, List.nil_append, List.map_cons, List.flatten_cons, List.append_assoc] at e'
      rw [← e'] at h2'
      simp at h2'
    | cons l' ls' =>
      simp only [List.map_cons, List.flatten_cons, List.append_assoc, List.cons_append, List.nil_append] at e'
      obtain ⟨a1, a2⟩ := key _ _ _ _ (h1 l (by simp)) (h1' l' (by simp)) e'
      obtain ⟨b1, b2⟩ := ih (fun x hx => h1 x (List.mem_cons_of_mem _ hx)) (fun x hx => h1' x (List.mem_cons_of_mem _ hx)) a2
      exact ⟨by rw [a1, b1], b2⟩

/-! ### Quoted texts -/

/-- The first character of a text is read as such. -/
theorem charAt_utf8 (n : Nat) (hn : Scalar n) (rest : Bytes) : ∃ b t, utf8 n = b :: t ∧ charAt b (t ++ rest) = (n, t.length) := by
  unfold Scalar at hn
  unfold utf8
  split
  · have ha := toNat_ofNat_lt (n := n) (by omega)
    refine ⟨_, _, rfl, ?_⟩
    unfold charAt
    rw [if_pos (by rw [lt80_iff]; omega), ha]
    rfl
  · split
    · have ha := toNat_ofNat_lt (n := 0xC0 + n / 64) (by omega)
      have hb := toNat_ofNat_lt (n := 0x80 + n % 64) (by omega)
      refine ⟨_, _, rfl, ?_⟩
      unfold charAt
      rw [if_neg (by rw [lt80_iff]; omega)]
      simp only [List.cons_append, List.nil_append]
      rw [if_pos (by rw [Bool.and_eq_true]; exact ⟨(lead2_iff _).mpr (by omega), (isCont_iff _).mpr (by omega)⟩), ha, hb]
      simp only [List.length_cons, List.length_nil, Prod.mk.injEq, and_true]
      omega
    · split
      · have ha := toNat_ofNat_lt (n := 0xE0 + n / 4096) (by omega)
        have hb := toNat_ofNat_lt (n := 0x80 + n / 64 % 64) (by omega)
        have hc := toNat_ofNat_lt (n := 0x80 + n % 64) (by omega)
        refine ⟨_, _, rfl, ?_⟩
        unfold charAt
        rw [if_neg (by rw [lt80_iff]; omega)]
        simp only [List.cons_append, List.nil_append]
        rw [if_neg (by rw [Bool.and_eq_true, lead2_iff]; omega),
          if_pos (by rw [Bool.and_eq_true]; exact ⟨(utf8Lead3_iff _ _).mpr (by omega), (isCont_iff _).mpr (by omega)⟩), ha, hb, hc]
        simp only [List.length_cons, List.length_nil, Prod.mk.injEq, and_true]
        omega
      · have ha := toNat_ofNat_lt (n := 0xF0 + n / 262144) (by omega)
        have hb := toNat_ofNat_lt (n := 0x80 + n / 4096 % 64) (by omega)
        have hc := toNat_ofNat_lt (n := 0x80 + n / 64 % 64) (by omega)
        have hd := toNat_ofNat_lt (n := 0x80 + n % 64) (by omega)
        refine ⟨_, _, rfl, ?_⟩
        unfold charAt
        rw [if_neg (by rw [lt80_iff]; omega)]
        simp only [List.cons_append, List.nil_append]
        rw [if_neg (by rw [Bool.and_eq_true, lead2_iff]; omega), if_neg (by rw [Bool.and_eq_true, utf8Lead3_iff]; omega),
          if_pos (by rw [Bool.and_eq_true, Bool.and_eq_true]; exact ⟨⟨(utf8Lead4_iff _ _).mpr (by omega), (isCont_iff _).mpr (by omega)⟩, (isCont_iff _).mpr (by omega)⟩),
          ha, hb, hc, hd]
        simp only [List.length_cons, List.length_nil, Prod.mk.injEq, and_true]
        omega

theorem charsF_text : ∀ (cs : List Nat) (f : Nat), (∀ n ∈ cs, Scalar n) → (cs.flatMap utf8).length ≤ f →
    charsF f (cs.flatMap utf8) = cs.map fun n => (n, utf8 n)
  | [], f, _, _ => by cases f <;> rfl
  | n :: cs, f, h, hf => by
    obtain ⟨b, t, e, hc⟩ := charAt_utf8 n (h n (by simp)) (cs.flatMap utf8)
    simp only [List.flatMap_cons, List.length_append] at hf
    simp only [List.flatMap_cons, List.map_cons]
    rw [e] at hf ⊢
    cases f with
    | zero => simp at hf
    | succ f =>
      simp only [List.length_cons] at hf
      rw [List.cons_append, charsF, hc]
      simp only [List.take_left, List.drop_left]
      rw [charsF_text cs f (fun m hm => h m (List.mem_cons_of_mem _ hm)) (by omega)]

theorem chars_text {cs : List Nat} {s : Bytes} (h : IsText cs s) : chars s = cs.map fun n => (n, utf8 n) := by
  rw [chars, h.2]
  exact charsF_text cs _ h.1 (Nat.le_refl _)

theorem hexDigit_lower (n : Nat) (h : n < 16) : hexDigit (hexLower n) = some n := by
  have : ∀ n : Fin 16, hexDigit (hexLower n.1) = some n.1 := by decide +kernel
  exact this ⟨n, h⟩

/-- Hexadecimal digits are read as the number they were written for. -/
theorem readHex_rev : ∀ (f n : Nat) (acc : Nat) (r : Bytes), n < f → ∃ k, readHex ((hexRev f n).reverse ++ r) acc = readHex r (acc * 16 ^ k + n)
  | 0, n, _, _, h => by omega
  | f + 1, n, acc, r, h => by
    rw [hexRev]
    have hd := hexDigit_lower (n % 16) (by omega)
    have hne := (hexLower_plain (n % 16) (by omega)).2.2
    split
    · rename_i h0
      refine ⟨1, ?_⟩
      simp only [List.reverse_cons, List.reverse_nil, List.nil_append, List.cons_append]
      rw [readHex, if_neg hne, hd]
      simp only []
      congr 1
      omega
    · obtain ⟨k, hk⟩ := readHex_rev f (n / 16) acc (hexLower (n % 16) :: r) (by omega)
      refine ⟨k + 1, ?_⟩
      rw [List.reverse_cons, List.append_assoc, List.cons_append, List.nil_append, hk, readHex, if_neg hne, hd]
      simp only []
      congr 1
      rw [Nat.pow_succ, ← Nat.mul_assoc]
      omega

theorem readEscape_unicode (n : Nat) (r : Bytes) : ∃ t, escapeUnicode n ++ r = 92 :: t ∧ readEscape t = some (utf8 n, r) := by
  refine ⟨117 :: 123 :: ((hexRev (n + 1) n).reverse ++ 125 :: r), by simp [escapeUnicode], ?_⟩
  obtain ⟨k, hk⟩ := readHex_rev (n + 1) n 0 (125 :: r) (by omega)
  simp only [readEscape, show (117 : UInt8) ≠ 48 by decide, show (117 : UInt8) ≠ 116 by decide, show (117 : UInt8) ≠ 110 by decide,
    show (117 : UInt8) ≠ 114 by decide, show (117 : UInt8) ≠ 34 by decide, show (117 : UInt8) ≠ 92 by decide, if_false, if_true]
  rw [hk]
  simp [readHex]

/-- Bytes that are neither quotation marks nor backslashes stand for themselves. -/
theorem readText_raw : ∀ (l : Bytes) (f : Nat) (r : Bytes), (∀ b ∈ l, b ≠ 34 ∧ b ≠ 92) → l.length ≤ f →
    readText f (l ++ r) = (readText (f - l.length) r).map fun x => (l ++ x.1, x.2)
  | [], f, r, _, _ => by
    simp only [List.nil_append, List.length_nil, Nat.sub_zero]
    cases readText f r <;> rfl
  | b :: l, f, r, h, hf => by
    cases f with
    | zero => simp at hf
    | succ f =>
      simp only [List.length_cons] at hf
      have hb := h b (by simp)
      rw [List.cons_append, readText, if_neg hb.1, if_neg hb.2, readText_raw l f r (fun c hc => h c (List.mem_cons_of_mem _ hc)) (by omega)]
      simp only [List.length_cons, show f + 1 - (l.length + 1) = f - l.length by omega]
      cases readText (f - l.length) r <;> rfl

theorem utf8_plain (n : Nat) (hn : Scalar n) (h : n ≠ 34 ∧ n ≠ 92) : ∀ b ∈ utf8 n, b ≠ 34 ∧ b ≠ 92 := by
  obtain ⟨b, t, e, hc⟩ := charAt_utf8 n hn []
  rw [List.append_nil] at hc
  obtain ⟨h1, h2⟩ := charAt_ascii b t
  rw [hc] at h2
  rw [e]
  intro x hx
  rcases List.mem_cons.mp hx with rfl | hx
  · constructor <;> rintro rfl
    · have := h1 (by decide); rw [hc] at this; exact h.1 (congrArg Prod.fst this)
    · have := h1 (by decide); rw [hc] at this; exact h.2 (congrArg Prod.fst this)
  · have := h2 x (by simpa using hx)
    constructor <;> rintro rfl <;> simp at this

theorem readText_chars (shown : Nat → Bool) (rest : Bytes) : ∀ (cs : List Nat) (f : Nat), (∀ n ∈ cs, Scalar n) →
    (cs.flatMap (fun n => escapeDebug shown (n, utf8 n))).length < f →
    readText f (cs.flatMap (fun n => escapeDebug shown (n, utf8 n)) ++ 34 :: rest) = some (cs.flatMap utf8, rest)
  | [], f, _, hf => by
    cases f with
    | zero => simp at hf
    | succ f => rfl
  | n :: cs, f, h, hf => by
    simp only [List.flatMap_cons, List.length_append] at hf
    simp only [List.flatMap_cons, List.append_assoc]
    have hn := h n (by simp)
    have ih := fun g hg => readText_chars shown rest cs g (fun m hm => h m (List.mem_cons_of_mem _ hm)) hg
    generalize hr : cs.flatMap (fun n => escapeDebug shown (n, utf8 n)) ++ 34 :: rest = r at ih
    -- an escape, or the character itself
    have esc : ∀ t, escapeDebug shown (n, utf8 n) ++ r = 92 :: t → readEscape t = some (utf8 n, r) → 0 < (escapeDebug shown (n, utf8 n)).length →
        readText f (escapeDebug shown (n, utf8 n) ++ r) = some (utf8 n ++ cs.flatMap utf8, rest) := by
      intro t e1 e2 e3
      cases f with
      | zero => omega
      | succ f =>
        rw [e1, readText, if_neg (by decide), if_pos rfl, e2]
        simp only []
        rw [ih f (by omega)]
    have raw : (n ≠ 34 ∧ n ≠ 92) → escapeDebug shown (n, utf8 n) = utf8 n → readText f (escapeDebug shown (n, utf8 n) ++ r) = some (utf8 n ++ cs.flatMap utf8, rest) := by
      intro h1 h2
      rw [h2] at hf ⊢
      rw [readText_raw _ _ _ (utf8_plain n hn h1) (by omega), ih _ (by omega)]
      rfl
    by_cases h0 : n = 0
    · subst h0; exact esc (48 :: r) rfl rfl (by show 0 < 2; decide)
    by_cases h9 : n = 9
    · subst h9; exact esc (116 :: r) rfl rfl (by show 0 < 2; decide)
    by_cases h10 : n = 10
    · subst h10; exact esc (110 :: r) rfl rfl (by show 0 < 2; decide)
    by_cases h13 : n = 13
    · subst h13; exact esc (114 :: r) rfl rfl (by show 0 < 2; decide)
    by_cases h34 : n = 34
    · subst h34; exact esc (34 :: r) rfl rfl (by show 0 < 2; decide)
    by_cases h92 : n = 92
    · subst h92; exact esc (92 :: r) rfl rfl (by show 0 < 2; decide)
    by_cases hs : (if n < 128 then decide (32 ≤ n) && decide (n < 127) else shown n) = true
    · exact raw ⟨h34, h92⟩ (by simp only [escapeDebug, h0, h9, h10, h13, h34, h92, if_false, hs, if_true])
    · have e : escapeDebug shown (n, utf8 n) = escapeUnicode n := by
        simp only [escapeDebug, h0, h9, h10, h13, h34, h92, if_false, hs, Bool.false_eq_true]
      obtain ⟨t, e1, e2⟩ := readEscape_unicode n r
      refine esc t (by rw [e, e1]) e2 (by rw [e]; simp [escapeUnicode])

theorem unquote_debugStr (shown : Nat → Bool) {s : Bytes} (h : Text s) (rest : Bytes) : unquote (debugStr shown s ++ rest) = some (s, rest) := by
  obtain ⟨cs, hc⟩ := h
  have e : debugStr shown s ++ rest = 34 :: (cs.flatMap (fun n => escapeDebug shown (n, utf8 n)) ++ 34 :: rest) := by
    rw [debugStr, chars_text hc, List.flatMap_map]
    simp
  rw [e, unquote, readText_chars shown rest cs _ hc.1 (by simp), hc.2]

end RustBit
