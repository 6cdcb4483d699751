/-
C100: a line of the log tells which record it is of.
-/
import Verif.Spec.LogRead
import Verif.Proofs.LogSize
import Verif.Props.LogText

namespace RustBit
open Spec

/-! ### Items, and what comes after them -/

theorem dec_lit {a b : Nat} {c : UInt8} {l r r' : Bytes} (hc : isDigit c = false) (e : decimal a ++ ((c :: l) ++ r) = decimal b ++ ((c :: l) ++ r')) :
    a = b ∧ r = r' := by
  obtain ⟨h1, h2⟩ := decimal_prefix (x := c) (y := c) (r := l ++ r) (r' := l ++ r') hc hc e
  exact ⟨h1, List.append_cancel_left h2⟩

theorem byte_lit {a b : UInt8} {c : UInt8} {l r r' : Bytes} (hc : isDigit c = false)
    (e : decimal a.toNat ++ ((c :: l) ++ r) = decimal b.toNat ++ ((c :: l) ++ r')) : a = b ∧ r = r' :=
  let ⟨h1, h2⟩ := dec_lit hc e
  ⟨UInt8.toNat_inj.mp h1, h2⟩

theorem str_lit {shown : Nat → Bool} {s s' l r r' : Bytes} (h : Text s) (h' : Text s') (e : debugStr shown s ++ (l ++ r) = debugStr shown s' ++ (l ++ r')) :
    s = s' ∧ r = r' :=
  let ⟨h1, h2⟩ := debugStr_prefix shown h h' e
  ⟨h1, List.append_cancel_left h2⟩

theorem bytes_lit {s s' l r r' : Bytes} (e : debugBytes s ++ (l ++ r) = debugBytes s' ++ (l ++ r')) : s = s' ∧ r = r' :=
  let ⟨h1, h2⟩ := debugBytes_prefix _ _ _ _ e
  ⟨h1, List.append_cancel_left h2⟩

theorem opt_lit {α : Type} {g : α → Bytes} {o o' : Option α} {l r r' : Bytes}
    (hg : ∀ a b, o = some a → o' = some b → ∀ x y, g a ++ (b!")" ++ x) = g b ++ (b!")" ++ y) → a = b ∧ x = y)
    (e : debugOption (o.map g) ++ (l ++ r) = debugOption (o'.map g) ++ (l ++ r')) : o = o' ∧ r = r' := by
  cases o with
  | none => cases o' with
    | none => exact ⟨rfl, List.append_cancel_left (List.append_cancel_left e)⟩
    | some b => exact absurd (show (78 : UInt8) = 83 from (List.cons.inj e).1) (by decide)
  | some a => cases o' with
    | none => exact absurd (show (83 : UInt8) = 78 from (List.cons.inj e).1) (by decide)
    | some b =>
      simp only [Option.map_some, debugOption, List.append_assoc] at e
      obtain ⟨h1, h2⟩ := hg a b rfl rfl _ _ (List.append_cancel_left e)
      exact ⟨by rw [h1], List.append_cancel_left h2⟩

theorem optDec_lit {o o' : Option Nat} {l r r' : Bytes} (e : debugOption (o.map decimal) ++ (l ++ r) = debugOption (o'.map decimal) ++ (l ++ r')) :
    o = o' ∧ r = r' := opt_lit (fun _ _ _ _ _ _ e => dec_lit (by decide) e) e

theorem optStr_lit {shown : Nat → Bool} {o o' : Option Bytes} {l r r' : Bytes} (h : ∀ x, o = some x → Text x) (h' : ∀ x, o' = some x → Text x)
    (e : debugOption (o.map (debugStr shown)) ++ (l ++ r) = debugOption (o'.map (debugStr shown)) ++ (l ++ r')) :
    o = o' ∧ r = r' := opt_lit (fun _ _ ha hb _ _ e => str_lit (h _ ha) (h' _ hb) e) e

/-- Items with commas between them. -/
theorem exts_lit (shown : Nat → Bool) : ∀ (l l' : List (Bytes × UInt8)) (x y : Bytes), (∀ i ∈ l, Text i.1) → (∀ i ∈ l', Text i.1) →
    commas (l.map fun i => debugStr shown i.1 ++ (b!": " ++ decimal i.2.toNat)) ++ 125 :: x =
      commas (l'.map fun i => debugStr shown i.1 ++ (b!": " ++ decimal i.2.toNat)) ++ 125 :: y → l = l' ∧ x = y
  | [], [], x, y, _, _, e => ⟨rfl, (List.cons.inj e).2⟩
  | [], b :: t, x, y, _, _, e => by
    rw [List.map_cons, commas_cons] at e
    exact absurd (show (125 : UInt8) = 34 from (List.cons.inj e).1) (by decide)
  | a :: t, [], x, y, _, _, e => by
    rw [List.map_cons, commas_cons] at e
    exact absurd (show (34 : UInt8) = 125 from (List.cons.inj e).1) (by decide)
  | a :: t, b :: t', x, y, h, h', e => by
    simp only [List.map_cons, commas_cons, List.append_assoc] at e
    obtain ⟨r0, e⟩ := str_lit (h a List.mem_cons_self) (h' b List.mem_cons_self) e
    obtain ⟨c, r, e1, hh⟩ := moreItems_head 125 x (t.map fun i => debugStr shown i.1 ++ (b!": " ++ decimal i.2.toNat))
    obtain ⟨c', r', e2, hh'⟩ := moreItems_head 125 y (t'.map fun i => debugStr shown i.1 ++ (b!": " ++ decimal i.2.toNat))
    have hd : isDigit c = false := by rcases hh with rfl | rfl <;> decide
    have hd' : isDigit c' = false := by rcases hh' with rfl | rfl <;> decide
    rw [e1, e2] at e
    obtain ⟨ha, -, -⟩ := digits_prefix (decimal_digit a.2.toNat) (decimal_digit b.2.toNat) hd hd' e
    rw [ha, ← e1, ← e2] at e
    have e := List.append_cancel_left e
    have hab : a = b := Prod.ext r0 (UInt8.toNat_inj.mp (decimal_inj ha))
    have ih := exts_lit shown t t' x y (fun i hi => h i (List.mem_cons_of_mem _ hi)) (fun i hi => h' i (List.mem_cons_of_mem _ hi))
    cases t with
    | nil => cases t' with
      | nil =>
        simp only [List.map_nil, moreItems, List.cons.injEq, true_and] at e
        exact ⟨by rw [hab], e⟩
      | cons b2 t2 =>
        simp only [List.map_nil, List.map_cons, moreItems, List.cons.injEq] at e
        exact absurd e.1 (by decide)
    | cons a2 t2 => cases t' with
      | nil =>
        simp only [List.map_nil, List.map_cons, moreItems, List.cons.injEq] at e
        exact absurd e.1 (by decide)
      | cons b2 t2' =>
        simp only [List.map_cons, moreItems, List.cons.injEq, true_and] at e
        obtain ⟨r1, r2⟩ := ih e
        exact ⟨by rw [hab, r1], r2⟩

/-! ### Messages, errors, URLs -/

theorem content_prefix (shown : Nat → Bool) {c c' : ContentType} (h : ∀ e, c = .extension e → ∀ x ∈ e.extensions, Text x.1)
    (h' : ∀ e, c' = .extension e → ∀ x ∈ e.extensions, Text x.1) {x y : Bytes} (e : c.debug shown ++ x = c'.debug shown ++ y) : c = c' ∧ x = y := by
  cases c with
  | request r =>
    cases c' with
    | request r' =>
      simp only [ContentType.debug, List.append_assoc] at e
      obtain ⟨h1, e⟩ := dec_lit (by decide) (List.append_cancel_left e)
      obtain ⟨h2, e⟩ := dec_lit (by decide) e
      obtain ⟨h3, e⟩ := bytes_lit e
      exact ⟨by clear h h'; cases r; cases r'; simp_all, e⟩
    | _ => exact absurd (List.cons.inj e).1 (by decide)
  | extension r =>
    cases c' with
    | extension r' =>
      simp only [ContentType.debug, List.append_assoc] at e
      obtain ⟨h1, e⟩ := byte_lit (by decide) (List.append_cancel_left e)
      obtain ⟨h2, e⟩ := optDec_lit e
      obtain ⟨h3, e⟩ := optDec_lit e
      obtain ⟨h4, e⟩ := exts_lit shown _ _ _ _ (h r rfl) (h' r' rfl) e
      have e := List.append_cancel_left (as := b!", piece: ") e
      obtain ⟨h5, e⟩ := optDec_lit e
      obtain ⟨h6, e⟩ := bytes_lit e
      exact ⟨by clear h h'; cases r; cases r'; simp_all, e⟩
    | _ => exact absurd (List.cons.inj e).1 (by decide)
  | interested =>
    cases c' with
    | interested => exact ⟨rfl, List.append_cancel_left e⟩
    | _ => exact absurd (List.cons.inj e).1 (by decide)
  | bitfield b =>
    cases c' with
    | bitfield b' =>
      simp only [ContentType.debug, List.append_assoc] at e
      obtain ⟨h1, e⟩ := bytes_lit (List.append_cancel_left e)
      exact ⟨by rw [h1], e⟩
    | _ => exact absurd (List.cons.inj e).1 (by decide)
  | handshake r =>
    cases c' with
    | handshake r' =>
      simp only [ContentType.debug, List.append_assoc] at e
      obtain ⟨h1, e⟩ := byte_lit (by decide) (List.append_cancel_left e)
      obtain ⟨h2, e⟩ := bytes_lit e
      obtain ⟨h3, e⟩ := bytes_lit e
      obtain ⟨h4, e⟩ := bytes_lit e
      obtain ⟨h5, e⟩ := bytes_lit e
      exact ⟨by clear h h'; cases r; cases r'; simp_all, e⟩
    | _ => exact absurd (List.cons.inj e).1 (by decide)
  | nothing =>
    cases c' with
    | nothing => exact ⟨rfl, List.append_cancel_left e⟩
    | _ => exact absurd (List.cons.inj e).1 (by decide)

theorem message_prefix (shown : Nat → Bool) {m m' : Message} (h : TextMessage m) (h' : TextMessage m') {x y : Bytes} (e : m.debug shown ++ x = m'.debug shown ++ y) :
    m = m' ∧ x = y := by
  simp only [Message.debug, List.append_assoc] at e
  obtain ⟨h1, e⟩ := byte_lit (by decide) (List.append_cancel_left e)
  obtain ⟨h2, e⟩ := dec_lit (by decide) e
  obtain ⟨h3, e⟩ := content_prefix shown (fun r hr => by rw [TextMessage, hr] at h; exact h) (fun r hr => by rw [TextMessage, hr] at h'; exact h') e
  exact ⟨by clear h h'; cases m; cases m'; simp_all, List.append_cancel_left e⟩

theorem span_eq {p : UInt8 → Bool} : ∀ {a b : Bytes} {c c' : UInt8} {x y : Bytes}, (∀ d ∈ a, p d = true) → (∀ d ∈ b, p d = true) → p c = false → p c' = false →
    a ++ c :: x = b ++ c' :: y → a = b
  | [], [], _, _, _, _, _, _, _, _, _ => rfl
  | [], d :: b, c, _, _, _, _, hb, hc, _, e => by
    have : c = d := (List.cons.inj e).1
    rw [this, hb d List.mem_cons_self] at hc
    cases hc
  | d :: a, [], _, c', _, _, ha, _, _, hc, e => by
    have : d = c' := (List.cons.inj e).1
    rw [← this, ha d List.mem_cons_self] at hc
    cases hc
  | d :: a, d' :: b, _, _, _, _, ha, hb, hc, hc', e => by
    obtain ⟨e1, e2⟩ := List.cons.inj e
    rw [e1, span_eq (fun x hx => ha x (List.mem_cons_of_mem _ hx)) (fun x hx => hb x (List.mem_cons_of_mem _ hx)) hc hc' e2]

theorem kind_lit {k k' : KindName} {c : UInt8} {l r r' : Bytes} (hc : ¬ ((65 ≤ c ∧ c ≤ 90) ∨ (97 ≤ c ∧ c ≤ 122)))
    (e : k.name ++ ((c :: l) ++ r) = k'.name ++ ((c :: l) ++ r')) : k = k' ∧ r = r' := by
  obtain ⟨n, hn⟩ := k
  obtain ⟨n', hn'⟩ := k'
  simp only [] at e
  suffices h : n = n' by
    subst h
    exact ⟨rfl, List.append_cancel_left (List.append_cancel_left e)⟩
  refine span_eq (p := fun c => decide ((65 ≤ c ∧ c ≤ 90) ∨ (97 ≤ c ∧ c ≤ 122))) (fun d hd => by simpa using hn d hd) (fun d hd => by simpa using hn' d hd) ?_ ?_ e
  · exact decide_eq_false hc
  · exact decide_eq_false hc

theorem io_prefix (shown : Nat → Bool) {a b : IoError} (h : TextError a) (h' : TextError b) {x y : Bytes} (e : a.debug shown ++ x = b.debug shown ++ y) :
    a = b ∧ x = y := by
  cases a with
  | os c k m =>
    cases b with
    | os c' k' m' =>
      simp only [IoError.debug, List.append_assoc] at e
      obtain ⟨h1, e⟩ := dec_lit (by decide) (List.append_cancel_left e)
      obtain ⟨h2, e⟩ := kind_lit (by decide) e
      obtain ⟨h3, e⟩ := str_lit h h' e
      exact ⟨by rw [h1, h2, h3], e⟩
    | _ => exact absurd (List.cons.inj e).1 (by decide)
  | simple k m =>
    cases b with
    | simple k' m' =>
      simp only [IoError.debug, List.append_assoc] at e
      obtain ⟨h2, e⟩ := kind_lit (by decide) (List.append_cancel_left e)
      obtain ⟨h3, e⟩ := str_lit h h' e
      exact ⟨by rw [h2, h3], e⟩
    | os => exact absurd (List.cons.inj e).1 (by decide)
    | json => exact absurd (show (some (32 : UInt8)) = some 40 from congrArg (fun l : Bytes => l[5]?) e) (by decide)
  | json m l c =>
    cases b with
    | json m' l' c' =>
      simp only [IoError.debug, List.append_assoc] at e
      obtain ⟨h1, e⟩ := str_lit h h' (List.append_cancel_left e)
      obtain ⟨h2, e⟩ := dec_lit (by decide) e
      obtain ⟨h3, e⟩ := dec_lit (by decide) e
      exact ⟨by rw [h1, h2, h3], e⟩
    | os => exact absurd (List.cons.inj e).1 (by decide)
    | simple => exact absurd (show (some (40 : UInt8)) = some 32 from congrArg (fun l : Bytes => l[5]?) e) (by decide)

theorem host_lit (shown : Nat → Bool) {a b : UrlHost} (h : ∀ x, a = .domain x → Text x) (h' : ∀ x, b = .domain x → Text x) {x y : Bytes}
    (e : a.debug shown ++ (b!")" ++ x) = b.debug shown ++ (b!")" ++ y)) : a = b ∧ x = y := by
  cases a with
  | domain s =>
    cases b with
    | domain s' =>
      simp only [UrlHost.debug, List.append_assoc] at e
      obtain ⟨h1, e⟩ := str_lit (h _ rfl) (h' _ rfl) (List.append_cancel_left e)
      exact ⟨by rw [h1], List.append_cancel_left e⟩
    | ipv4 => exact absurd (List.cons.inj e).1 (by decide)
  | ipv4 a1 a2 a3 a4 =>
    cases b with
    | domain s' => exact absurd (List.cons.inj e).1 (by decide)
    | ipv4 b1 b2 b3 b4 =>
      simp only [UrlHost.debug, List.append_assoc] at e
      obtain ⟨h1, e⟩ := dec_lit (by decide) (List.append_cancel_left e)
      obtain ⟨h2, e⟩ := dec_lit (by decide) e
      obtain ⟨h3, e⟩ := dec_lit (by decide) e
      obtain ⟨h4, e⟩ := dec_lit (by decide) e
      exact ⟨by rw [h1, h2, h3, h4], List.append_cancel_left e⟩

theorem bool_lit {a b : Bool} {l r r' : Bytes} (e : (if a then b!"true" else b!"false") ++ (l ++ r) = (if b then b!"true" else b!"false") ++ (l ++ r')) :
    a = b ∧ r = r' := by
  cases a <;> cases b
  · exact ⟨rfl, List.append_cancel_left (List.append_cancel_left e)⟩
  · exact absurd (show (102 : UInt8) = 116 from (List.cons.inj e).1) (by decide)
  · exact absurd (show (116 : UInt8) = 102 from (List.cons.inj e).1) (by decide)
  · exact ⟨rfl, List.append_cancel_left (List.append_cancel_left e)⟩

theorem url_prefix (shown : Nat → Bool) {u v : UrlView} (h : TextUrl u) (h' : TextUrl v) {x y : Bytes} (e : u.debug shown ++ x = v.debug shown ++ y) :
    u = v ∧ x = y := by
  obtain ⟨g1, g2, g3, g4, g5, g6, g7⟩ := h
  obtain ⟨k1, k2, k3, k4, k5, k6, k7⟩ := h'
  simp only [UrlView.debug, List.append_assoc] at e
  obtain ⟨h1, e⟩ := str_lit g1 k1 (List.append_cancel_left e)
  obtain ⟨h2, e⟩ := bool_lit e
  obtain ⟨h3, e⟩ := str_lit g2 k2 e
  obtain ⟨h4, e⟩ := optStr_lit g3 k3 e
  obtain ⟨h5, e⟩ := opt_lit (fun a b ha hb x y e => host_lit shown (fun z hz => g4 z (by rw [ha, hz])) (fun z hz => k4 z (by rw [hb, hz])) e) e
  obtain ⟨h6, e⟩ := optDec_lit e
  obtain ⟨h7, e⟩ := str_lit g5 k5 e
  obtain ⟨h8, e⟩ := optStr_lit g6 k6 e
  obtain ⟨h9, e⟩ := optStr_lit g7 k7 e
  refine ⟨?_, e⟩
  clear g1 g2 g3 g4 g5 g6 g7 k1 k2 k3 k4 k5 k6 k7
  cases u; cases v
  simp_all

theorem display_inj {a b : DecoderError} (e : a.display = b.display) : a = b := by
  cases a with
  | badNumberFromString n =>
    cases b with
    | badNumberFromString k =>
      rw [decimal_inj (List.append_cancel_left e)]
    | badNumberDecode s => exact absurd (show (some (102 : UInt8)) = some 100 from congrArg (fun l : Bytes => l[11]?) e) (by decide)
    | noStringFound k => exact absurd (List.cons.inj e).1 (by decide)
    | badStringFromBytes k => exact absurd (show (some (110 : UInt8)) = some 115 from congrArg (fun l : Bytes => l[4]?) e) (by decide)
  | badNumberDecode s =>
    cases b with
    | badNumberFromString k => exact absurd (show (some (100 : UInt8)) = some 102 from congrArg (fun l : Bytes => l[11]?) e) (by decide)
    | badNumberDecode s' => rw [List.append_cancel_left e]
    | noStringFound k => exact absurd (List.cons.inj e).1 (by decide)
    | badStringFromBytes k => exact absurd (show (some (110 : UInt8)) = some 115 from congrArg (fun l : Bytes => l[4]?) e) (by decide)
  | noStringFound n =>
    cases b with
    | noStringFound k => rw [decimal_inj (List.append_cancel_left e)]
    | _ => exact absurd (List.cons.inj e).1 (by decide)
  | badStringFromBytes n =>
    cases b with
    | badStringFromBytes k => rw [decimal_inj (List.append_cancel_left e)]
    | noStringFound k => exact absurd (List.cons.inj e).1 (by decide)
    | badNumberFromString k => exact absurd (show (some (115 : UInt8)) = some 110 from congrArg (fun l : Bytes => l[4]?) e) (by decide)
    | badNumberDecode s => exact absurd (show (some (115 : UInt8)) = some 110 from congrArg (fun l : Bytes => l[4]?) e) (by decide)

/-! ### Records -/

/-- A number for each statement; those which begin alike have the same one. -/
def LogRec.kind : LogRec → Nat
  | .notText _ => 0
  | .notNumber _ => 1
  | .peersFound .. => 2
  | .udpSendFailed _ => 3
  | .noMessage _ => 4
  | .startDownload .. => 5
  | .completedDownload .. => 6
  | .gotMessage .. => 7
  | .notManaged .. => 7
  | .writeFailed .. => 8
  | .extensionBad _ => 9
  | .noExtensionValue _ => 10
  | .cacheFound _ => 11
  | .cacheUnreadable .. => 12
  | .cacheUnsaved .. => 12
  | .pieceWritten _ => 13

/-- The same read off some letters. -/
def kindOf (l : Bytes) : Option Nat :=
  let at' (i : Nat) (c : UInt8) : Bool := l[i]? == some c
  if at' 0 69 then (if at' 6 100 then (if at' 13 115 then some 0 else some 1) else some 8)
  else if at' 0 70 then some 2
  else if at' 0 83 then (if at' 1 101 then some 3 else some 5)
  else if at' 0 78 then (if at' 3 109 then some 4 else some 10)
  else if at' 0 67 then (if at' 1 97 then some 12 else if at' 10 100 then some 6 else some 13)
  else if at' 0 80 then some 7
  else if at' 0 34 then some 9
  else if at' 0 84 then some 11
  else none

theorem kindOf_args (shown : Nat → Bool) (r : LogRec) : kindOf (r.args shown) = some r.kind := by
  cases r with
  | writeFailed err b => cases err <;> rfl
  | _ => rfl

theorem name_inj : ∀ a ∈ ([0, 1, 2, 5, 19, 20] : List UInt8), ∀ b ∈ ([0, 1, 2, 5, 19, 20] : List UInt8), LogRec.messageName a = LogRec.messageName b → a = b := by
  decide

/-- C100: what a record says tells which record it is, except that a missing message is not told from a missing handshake. -/
theorem C100_says (shown : Nat → Bool) {r r' : LogRec} (h : TextRecord r) (h' : TextRecord r') (e : r.args shown = r'.args shown) :
    r = r' ∨ ∃ a b, r = .noMessage a ∧ r' = .noMessage b := by
  have hk : r.kind = r'.kind := Option.some.inj ((kindOf_args shown r).symm.trans ((congrArg kindOf e).trans (kindOf_args shown r')))
  have last : ∀ {a b : Bytes}, a = b → a ++ [] = b ++ [] := fun h => by rw [h]
  cases r with
  | notText n =>
    cases r' with
    | notText k => rw [decimal_inj (List.append_cancel_left e)]; exact .inl rfl
    | _ => exact absurd hk (by simp [LogRec.kind])
  | notNumber n =>
    cases r' with
    | notNumber k => rw [decimal_inj (List.append_cancel_left e)]; exact .inl rfl
    | _ => exact absurd hk (by simp [LogRec.kind])
  | peersFound n u =>
    cases r' with
    | peersFound k v =>
      simp only [LogRec.args, List.append_assoc] at e
      obtain ⟨h1, e⟩ := dec_lit (by decide) (List.append_cancel_left e)
      obtain ⟨h2, -⟩ := url_prefix shown h h' (last e)
      rw [h1, h2]
      exact .inl rfl
    | _ => exact absurd hk (by simp [LogRec.kind])
  | udpSendFailed n =>
    cases r' with
    | udpSendFailed k => rw [decimal_inj (List.append_cancel_left e)]; exact .inl rfl
    | _ => exact absurd hk (by simp [LogRec.kind])
  | noMessage a =>
    cases r' with
    | noMessage b => exact .inr ⟨a, b, rfl, rfl⟩
    | _ => exact absurd hk (by simp [LogRec.kind])
  | startDownload p i d =>
    cases r' with
    | startDownload p' i' d' =>
      simp only [LogRec.args, List.append_assoc] at e
      obtain ⟨h1, e⟩ := str_lit h.1 h'.1 (List.append_cancel_left e)
      obtain ⟨h2, e⟩ := dec_lit (by decide) e
      obtain ⟨h3, -⟩ := debugStr_prefix shown h.2 h'.2 (last e)
      rw [h1, h2, h3]
      exact .inl rfl
    | _ => exact absurd hk (by simp [LogRec.kind])
  | completedDownload p i d =>
    cases r' with
    | completedDownload p' i' d' =>
      simp only [LogRec.args, List.append_assoc] at e
      obtain ⟨h1, e⟩ := str_lit h.1 h'.1 (List.append_cancel_left e)
      obtain ⟨h2, e⟩ := dec_lit (by decide) e
      obtain ⟨h3, -⟩ := debugStr_prefix shown h.2 h'.2 (last e)
      rw [h1, h2, h3]
      exact .inl rfl
    | _ => exact absurd hk (by simp [LogRec.kind])
  | gotMessage p id =>
    cases r' with
    | gotMessage p' id' =>
      simp only [LogRec.args, List.append_assoc] at e
      obtain ⟨h1, e⟩ := str_lit h.1 h'.1 (List.append_cancel_left e)
      rw [h1, name_inj id h.2 id' h'.2 (List.append_cancel_right e)]
      exact .inl rfl
    | notManaged p' m =>
      simp only [LogRec.args, List.append_assoc] at e
      obtain ⟨-, e⟩ := debugStr_prefix shown h.1 h'.1 (List.append_cancel_left e)
      exact absurd (show (some (103 : UInt8)) = some 109 from congrArg (fun l : Bytes => l[1]?) e) (by decide)
    | _ => exact absurd hk (by simp [LogRec.kind])
  | notManaged p m =>
    cases r' with
    | gotMessage p' id' =>
      simp only [LogRec.args, List.append_assoc] at e
      obtain ⟨-, e⟩ := debugStr_prefix shown h.1 h'.1 (List.append_cancel_left e)
      exact absurd (show (some (109 : UInt8)) = some 103 from congrArg (fun l : Bytes => l[1]?) e) (by decide)
    | notManaged p' m' =>
      simp only [LogRec.args, List.append_assoc] at e
      obtain ⟨h1, e⟩ := str_lit h.1 h'.1 (List.append_cancel_left e)
      obtain ⟨h2, -⟩ := message_prefix shown h.2 h'.2 (last e)
      rw [h1, h2]
      exact .inl rfl
    | _ => exact absurd hk (by simp [LogRec.kind])
  | writeFailed err b =>
    cases r' with
    | writeFailed err' b' =>
      simp only [LogRec.args, List.append_assoc] at e
      obtain ⟨h1, e⟩ := io_prefix shown h h' (List.append_cancel_left e)
      obtain ⟨h2, -⟩ := debugBytes_prefix _ _ _ _ (last (List.append_cancel_left e))
      rw [h1, h2]
      exact .inl rfl
    | _ => exact absurd hk (by simp [LogRec.kind])
  | extensionBad err =>
    cases r' with
    | extensionBad err' =>
      obtain ⟨h1, -⟩ := debugStr_prefix shown h h' (last e)
      rw [display_inj h1]
      exact .inl rfl
    | _ => exact absurd hk (by simp [LogRec.kind])
  | noExtensionValue v =>
    cases r' with
    | noExtensionValue v' =>
      obtain ⟨h1, -⟩ := debug_prefix shown _ _ _ _ h h' (last (List.append_cancel_left e))
      rw [h1]
      exact .inl rfl
    | _ => exact absurd hk (by simp [LogRec.kind])
  | cacheFound path =>
    cases r' with
    | cacheFound path' =>
      obtain ⟨h1, -⟩ := debugStr_prefix shown h h' (last (List.append_cancel_left e))
      rw [h1]
      exact .inl rfl
    | _ => exact absurd hk (by simp [LogRec.kind])
  | cacheUnreadable err path =>
    cases r' with
    | cacheUnreadable err' path' =>
      simp only [LogRec.args, List.append_assoc] at e
      obtain ⟨h1, e⟩ := io_prefix shown h.1 h'.1 (List.append_cancel_left e)
      obtain ⟨h2, -⟩ := debugStr_prefix shown h.2 h'.2 (last (List.append_cancel_left e))
      rw [h1, h2]
      exact .inl rfl
    | cacheUnsaved err' path' =>
      simp only [LogRec.args, List.append_assoc] at e
      obtain ⟨h1, e⟩ := io_prefix shown h.1 h'.1 (List.append_cancel_left e)
      exact absurd (show (some (114 : UInt8)) = some 115 from congrArg (fun l : Bytes => l[7]?) e) (by decide)
    | _ => exact absurd hk (by simp [LogRec.kind])
  | cacheUnsaved err path =>
    cases r' with
    | cacheUnsaved err' path' =>
      simp only [LogRec.args, List.append_assoc] at e
      obtain ⟨h1, e⟩ := io_prefix shown h.1 h'.1 (List.append_cancel_left e)
      obtain ⟨h2, -⟩ := debugStr_prefix shown h.2 h'.2 (last (List.append_cancel_left e))
      rw [h1, h2]
      exact .inl rfl
    | cacheUnreadable err' path' =>
      simp only [LogRec.args, List.append_assoc] at e
      obtain ⟨h1, e⟩ := io_prefix shown h.1 h'.1 (List.append_cancel_left e)
      exact absurd (show (some (115 : UInt8)) = some 114 from congrArg (fun l : Bytes => l[7]?) e) (by decide)
    | _ => exact absurd hk (by simp [LogRec.kind])
  | pieceWritten n =>
    cases r' with
    | pieceWritten k => rw [decimal_inj (List.append_cancel_left e)]; exact .inl rfl
    | _ => exact absurd hk (by simp [LogRec.kind])

/-! ### Lines -/

theorem zeros_value (l : Bytes) (k : Nat) : (List.replicate k (48 : UInt8) ++ l).foldl (fun acc b => acc * 10 + (b.toNat - 48)) 0 = l.foldl (fun acc b => acc * 10 + (b.toNat - 48)) 0 := by
  induction k with
  | zero => rfl
  | succ k ih => rw [List.replicate_succ, List.cons_append, List.foldl_cons]; exact ih

theorem pad_inj {k a b : Nat} (e : padDecimal k a = padDecimal k b) : a = b := by
  have := congrArg (List.foldl (fun acc (b : UInt8) => acc * 10 + (b.toNat - 48)) 0) e
  rw [padDecimal, padDecimal, zeros_value, zeros_value, decimal_foldl, decimal_foldl] at this
  exact this

theorem pad_lit {k a b : Nat} (hk : 0 < k) (ha : a < 10 ^ k) (hb : b < 10 ^ k) {l r r' : Bytes} (e : padDecimal k a ++ (l ++ r) = padDecimal k b ++ (l ++ r')) :
    a = b ∧ r = r' := by
  obtain ⟨h1, h2⟩ := List.append_inj e (by rw [padDecimal_length k a hk ha, padDecimal_length k b hk hb])
  exact ⟨pad_inj h1, List.append_cancel_left h2⟩

theorem time_lit {t t' : LogTime} (h : t.Valid) (h' : t'.Valid) {l r r' : Bytes} (e : t.text ++ (l ++ r) = t'.text ++ (l ++ r')) : t = t' ∧ r = r' := by
  obtain ⟨g1, g2, g3, g4, g5, g6, g7⟩ := h
  obtain ⟨k1, k2, k3, k4, k5, k6, k7⟩ := h'
  simp only [LogTime.text, List.append_assoc] at e
  obtain ⟨h1, e⟩ := pad_lit (by decide) g1 k1 e
  obtain ⟨h2, e⟩ := pad_lit (by decide) g2 k2 e
  obtain ⟨h3, e⟩ := pad_lit (by decide) g3 k3 e
  obtain ⟨h4, e⟩ := pad_lit (by decide) g4 k4 e
  obtain ⟨h5, e⟩ := pad_lit (by decide) g5 k5 e
  obtain ⟨h6, e⟩ := pad_lit (by decide) g6 k6 e
  obtain ⟨h7, e⟩ := pad_lit (by decide) g7 k7 e
  refine ⟨?_, e⟩
  clear g1 g2 g3 g4 g5 g6 g7 k1 k2 k3 k4 k5 k6 k7
  cases t; cases t'
  simp_all

theorem place_plain (r : LogRec) : ∀ d ∈ r.place.1, d ≠ 58 := by
  cases r <;> (simp only [LogRec.place]; decide)

theorem level_plain (r : LogRec) : ∀ d ∈ r.level, d ≠ 93 := by
  cases r <;> (simp only [LogRec.level]; decide)

/-- C100: a line of the log tells the record it is of, and the time. -/
theorem C100_read (shown : Nat → Bool) {t t' : LogTime} {r r' : LogRec} (ht : t.Valid) (ht' : t'.Valid) (h : TextRecord r) (h' : TextRecord r')
    (e : r.line shown t = r'.line shown t') : r = r' ∧ t = t' := by
  simp only [LogRec.line, List.append_assoc] at e
  have hp : r.place.1 = r'.place.1 := span_eq (p := fun d => d != 58) (fun d hd => by simpa using place_plain r d hd)
    (fun d hd => by simpa using place_plain r' d hd) (by decide) (by decide) e
  rw [hp] at e
  obtain ⟨hn, e⟩ := dec_lit (by decide) (List.append_cancel_left (List.append_cancel_left e))
  obtain ⟨h1, e⟩ := time_lit ht ht' e
  have hl : r.level = r'.level := span_eq (p := fun d => d != 93) (fun d hd => by simpa using level_plain r d hd)
    (fun d hd => by simpa using level_plain r' d hd) (by decide) (by decide) e
  rw [hl] at e
  have e := List.append_cancel_right (List.append_cancel_left (List.append_cancel_left e))
  refine ⟨?_, h1⟩
  rcases C100_says shown h h' e with h2 | ⟨a, b, rfl, rfl⟩
  · exact h2
  · cases a <;> cases b
    · rfl
    · exact absurd hn (by decide)
    · exact absurd hn (by decide)
    · rfl

/-- C100: so does the log as a whole: what is in it is the lines of no other records. -/
theorem C100_log_read (shown : Nat → Bool) : ∀ {rs rs' : List (LogTime × LogRec)}, (∀ x ∈ rs, x.1.Valid ∧ TextRecord x.2) → (∀ x ∈ rs', x.1.Valid ∧ TextRecord x.2) →
    (rs.map fun x => x.2.line shown x.1).flatten = (rs'.map fun x => x.2.line shown x.1).flatten → rs = rs'
  | [], [], _, _, _ => rfl
  | [], x :: rs', _, _, e => by
    obtain ⟨l, h, -⟩ := C100_one_line shown x.1 x.2
    rw [List.map_cons, List.flatten_cons, h] at e
    simp at e
  | x :: rs, [], _, _, e => by
    obtain ⟨l, h, -⟩ := C100_one_line shown x.1 x.2
    rw [List.map_cons, List.flatten_cons, h] at e
    simp at e
  | x :: rs, y :: rs', h, h', e => by
    obtain ⟨l, hl, ho⟩ := C100_one_line shown x.1 x.2
    obtain ⟨k, hk, ho'⟩ := C100_one_line shown y.1 y.2
    simp only [List.map_cons, List.flatten_cons, hl, hk, List.append_assoc] at e
    have hlk : l = k := span_eq (p := fun d => d != 10) (fun d hd => by simpa using fun (e : d = 10) => ho.1 (e ▸ hd))
      (fun d hd => by simpa using fun (e : d = 10) => ho'.1 (e ▸ hd)) (by decide) (by decide) e
    subst hlk
    have e := List.append_cancel_left (List.append_cancel_left e)
    obtain ⟨h1, h2⟩ := C100_read shown (h x List.mem_cons_self).1 (h' y List.mem_cons_self).1 (h x List.mem_cons_self).2 (h' y List.mem_cons_self).2 (hl.trans hk.symm)
    rw [C100_log_read shown (fun z hz => h z (List.mem_cons_of_mem _ hz)) (fun z hz => h' z (List.mem_cons_of_mem _ hz)) e, show x = y from Prod.ext h2 h1]

/-- C100: what is logged as an error is what went wrong. -/
theorem C100_errors (r : LogRec) : r.level = b!"ERROR" ↔ Fault r := by
  cases r <;> simp [LogRec.level, Fault]

/-- Where records about something come from. -/
def placeOf : Topic → Bytes × Nat
  | .notText => (b!"src/bencode/decode.rs", 52)
  | .notNumber => (b!"src/bencode/decode.rs", 63)
  | .peersFound => (b!"src/tracker/mod.rs", 41)
  | .udpSendFailed => (b!"src/tracker/udp_tracker.rs", 72)
  | .noHandshake => (b!"src/peer/manager.rs", 89)
  | .noMessage => (b!"src/peer/manager.rs", 103)
  | .pieceStarted => (b!"src/peer/manager.rs", 120)
  | .pieceCompleted => (b!"src/peer/manager.rs", 124)
  | .message id => (b!"src/peer/mod.rs",
      if id = 0 then 79 else if id = 1 then 83 else if id = 2 then 87 else if id = 5 then 91 else if id = 19 then 95 else 99)
  | .notManaged => (b!"src/peer/mod.rs", 118)
  | .writeFailed => (b!"src/peer/stream.rs", 151)
  | .extensionBad => (b!"src/messages/extension.rs", 38)
  | .noExtensionValue => (b!"src/messages/extension.rs", 103)
  | .cacheFound => (b!"src/torrent/info.rs", 62)
  | .cacheUnreadable => (b!"src/torrent/info.rs", 65)
  | .cacheUnsaved => (b!"src/torrent/info.rs", 82)
  | .pieceWritten => (b!"src/torrent/writer.rs", 25)

/-- What a record from this place is about. -/
def topicAt (x : Bytes × Nat) : Topic :=
  match [Topic.notText, .notNumber, .peersFound, .udpSendFailed, .noHandshake, .noMessage, .pieceStarted, .pieceCompleted, .message 0, .message 1, .message 2,
      .message 5, .message 19, .message 20, .notManaged, .writeFailed, .extensionBad, .noExtensionValue, .cacheFound, .cacheUnreadable, .cacheUnsaved].find?
        (fun t => placeOf t == x) with
  | some t => t
  | none => .pieceWritten

/-- C100: two records name the same place in the source exactly if they are about the same thing. -/
theorem C100_place {r r' : LogRec} (h : TextRecord r) (h' : TextRecord r') : r.place = r'.place ↔ topic r = topic r' := by
  have back : ∀ r, TextRecord r → topicAt r.place = topic r := by
    intro r h
    cases r with
    | gotMessage p id =>
      have hid := h.2
      simp only [List.mem_cons, List.not_mem_nil, or_false] at hid
      rcases hid with rfl | rfl | rfl | rfl | rfl | rfl <;> rfl
    | noMessage b => cases b <;> rfl
    | _ => rfl
  have forth : ∀ r, r.place = placeOf (topic r) := by
    intro r
    cases r with
    | noMessage b => cases b <;> rfl
    | _ => rfl
  exact ⟨fun e => by rw [← back r h, ← back r' h', e], fun e => by rw [forth r, forth r', e]⟩

/-- The hypotheses of `C100_read` can be met, with texts that look like parts of a line. -/
example : TextRecord (.startDownload b!"a\" piece 1" 1 b!"1.2.3.4:80\n") ∧ TextRecord (.gotMessage b!"x" 20) ∧
    TextRecord (.notManaged b!"x" ⟨20, 7, .extension ⟨0, some 1, none, [(b!"ut_metadata", 3)], none, [1, 2]⟩⟩) ∧
    TextRecord (.cacheUnreadable (.os 2 ⟨b!"NotFound", by decide⟩ b!"No such file or directory") b!"./downloads/x") ∧
    (⟨2023, 1, 31, 12, 0, 0, 7⟩ : LogTime).Valid := by
  have text : ∀ (l : List Nat), (∀ n ∈ l, n < 128) → Text (l.flatMap utf8) := by
    intro l hl
    refine ⟨l, fun n hn => ?_, rfl⟩
    have := hl n hn
    unfold Scalar
    omega
  refine ⟨⟨?_, ?_⟩, ⟨?_, by decide⟩, ⟨?_, ?_⟩, ⟨?_, ?_⟩, by unfold LogTime.Valid; decide⟩
  · exact text (b!"a\" piece 1".map UInt8.toNat) (by decide)
  · exact text (b!"1.2.3.4:80\n".map UInt8.toNat) (by decide)
  · exact text (b!"x".map UInt8.toNat) (by decide)
  · exact text (b!"x".map UInt8.toNat) (by decide)
  · intro x hx
    rw [List.mem_singleton.mp hx]
    exact text (b!"ut_metadata".map UInt8.toNat) (by decide)
  · exact text (b!"No such file or directory".map UInt8.toNat) (by decide)
  · exact text (b!"./downloads/x".map UInt8.toNat) (by decide)

end RustBit
