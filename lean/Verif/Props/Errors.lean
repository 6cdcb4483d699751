/-
Property C107: an error tells what was wrong.
-/
import Verif.Proofs.Faulty
import Verif.Props.InfoExact
import Verif.Props.Cache
import Verif.Props.Tracker

namespace RustBit
open Spec Decoder

theorem reports_iff (x : InputFault) (e : DecoderError) : Reports x e ↔ e = faultError 0 x := by
  constructor
  · rintro (_ | _) <;> simp [faultError]
  · rintro rfl
    cases x with
    | number ds => exact .number
    | key q => simp only [faultError, Nat.zero_add]; exact .key

/-- C107: the decoder returns an error exactly when there is something wrong with the input, and the error names the first thing that is: the digits that are no
number, or the position after the key that is no text. The two other kinds of error never occur. -/
theorem C107_decoder (c : Bytes) (e : DecoderError) : decode c = .err e ↔ ∃ x, Faulty c x ∧ Reports x e := by
  constructor
  · intro h
    obtain ⟨x, hx, he⟩ := (faulty_of_err _).1 _ _ _ h
    exact ⟨x, by simpa using hx, (reports_iff ..).mpr he⟩
  · rintro ⟨x, hx, he⟩
    rw [(reports_iff ..).mp he]
    obtain ⟨f, hf⟩ := err_of_faulty hx c 0 (by simp)
    rw [decode, decodeAt_of_fuel (f := f) (by rw [hf]; simp), hf]

/-- Non-vacuity: too large a number in a list in a dictionary, a key that is no text. -/
example : decode b!"d1:ali1ei99999999999999999999eee" = .err (.badNumberDecode b!"99999999999999999999") ∧
    decode (b!"d1:ai1e1:" ++ [0xFF] ++ b!"i1ee") = .err (.badStringFromBytes 10) := ⟨rfl, rfl⟩

theorem readFrom_iff (c : Bytes) (m : Metainfo) : ReadFrom c m ↔ ∃ n, decode c = .ok (m, n) := by
  constructor
  · rintro (⟨hl⟩ | h)
    · rename_i bs rest
      refine ⟨bs.length, (C11_accepts_exactly_partial _ m bs.length ?_).mpr ⟨by simp, by simpa using hl⟩⟩
      cases hl with
      | int => simp
      | str h _ => cases h with | mk h0 => rw [List.length_append, List.length_cons]; omega
      | list => simp
      | dict => simp
    · exact ⟨0, (C11_nothing_exactly_partial ..).mpr ⟨rfl, h⟩⟩
  · rintro ⟨n, h⟩
    by_cases hn : 0 < n
    · have := ReadFrom.value (rest := c.drop n) (C11_accepts_lenient_partial c m n h hn)
      rwa [List.take_append_drop] at this
    · have : n = 0 := by omega
      subst this
      obtain ⟨rfl, h'⟩ := (C11_nothing_exactly_partial ..).mp h
      exact .nothing h'

/-- C107: every input is of exactly one of four kinds: a value can be read, it ends too early, something in it is faulty, or it is one on which the decoder is stuck. -/
theorem C107_four (c : Bytes) : ((∃ m, ReadFrom c m) ∨ Cut c ∨ (∃ x, Faulty c x) ∨ Stuck c) ∧
    ¬ ((∃ m, ReadFrom c m) ∧ Cut c) ∧ ¬ ((∃ m, ReadFrom c m) ∧ ∃ x, Faulty c x) ∧ ¬ ((∃ m, ReadFrom c m) ∧ Stuck c) ∧
    ¬ (Cut c ∧ ∃ x, Faulty c x) ∧ ¬ (Cut c ∧ Stuck c) ∧ ¬ ((∃ x, Faulty c x) ∧ Stuck c) := by
  have h1 : (∃ m, ReadFrom c m) ↔ ∃ r, decode c = .ok r :=
    ⟨fun ⟨m, h⟩ => let ⟨n, h⟩ := (readFrom_iff ..).mp h; ⟨_, h⟩, fun ⟨(m, n), h⟩ => ⟨m, (readFrom_iff ..).mpr ⟨n, h⟩⟩⟩
  have h2 : (∃ x, Faulty c x) ↔ ∃ e, decode c = .err e :=
    ⟨fun ⟨x, h⟩ => ⟨faultError 0 x, (C107_decoder ..).mpr ⟨x, h, (reports_iff ..).mpr rfl⟩⟩,
      fun ⟨e, h⟩ => let ⟨x, h, _⟩ := (C107_decoder ..).mp h; ⟨x, h⟩⟩
  have h3 : Stuck c ↔ decode c = .hang := (C05_hangs_exactly_partial c).symm.trans decodeAt_hang_iff.symm
  rw [h1, h2, h3, ← C05_panics_exactly_partial]
  cases decode c <;> simp

/-! ### Accessors -/

theorem namedAs_iff (v : Metainfo) (n : Bytes) : NamedAs v n ↔ n = v.typeName := by
  constructor
  · rintro (_ | _) <;> rfl
  · rintro rfl
    cases v <;> constructor

theorem mapGet_none (d : List (Bytes × Metainfo)) (k : Bytes) : mapGet d k = none ↔ ∀ e ∈ d, e.1 ≠ k := by
  induction d with
  | nil => simp [mapGet]
  | cons e t ih =>
    obtain ⟨k', v⟩ := e
    simp only [mapGet, List.forall_mem_cons]
    split
    · rename_i h; simp [h]
    · rename_i h; simp [h, ih]

theorem wrong_iff {α : Type} (k : Kind) (get : Metainfo → Res MetainfoError α) (hget : ∀ v e, get v = .err e ↔ WrongValue k v e)
    (key : Bytes) (m : Metainfo) (e : MetainfoError) :
    (m.getDictContent >>= fun d => match mapGet d key with
      | some v => get v
      | none => .err (.noKeyInDictionary key)) = .err e ↔ Wrong k key m e := by
  constructor
  · intro h
    cases m with
    | dictionary d =>
      simp only [Metainfo.getDictContent, Res.bind_ok] at h
      cases hv : mapGet d key with
      | none =>
        rw [hv] at h
        cases h
        exact .missing ((mapGet_none ..).mp hv)
      | some v =>
        rw [hv] at h
        exact .value ((mapGet_at ..).mp hv) ((hget ..).mp h)
    | _ =>
      simp only [Metainfo.getDictContent, Res.bind_err, Res.err.injEq] at h
      subst h
      exact .dictionary ((namedAs_iff ..).mpr rfl) (by simp [Metainfo.typeName])
  · intro h
    cases h with
    | dictionary hn hd =>
      rw [(namedAs_iff ..).mp hn] at hd ⊢
      cases m <;> first | rfl | exact absurd rfl hd
    | missing h =>
      simp only [Metainfo.getDictContent, Res.bind_ok]
      rw [(mapGet_none ..).mpr h]
    | value ha hw =>
      simp only [Metainfo.getDictContent, Res.bind_ok]
      rw [(mapGet_at ..).mpr ha]
      exact (hget ..).mpr hw

theorem wrongKind_iff (k : Kind) (v : Metainfo) (e : MetainfoError) (h : k ≠ .text) :
    WrongValue k v e ↔ v.typeName ≠ k.name ∧ e = .badMetainfoMatch k.name v.typeName := by
  constructor
  · intro hw
    cases hw with
    | kind hn hne => rw [(namedAs_iff ..).mp hn] at hne ⊢; exact ⟨hne, rfl⟩
    | text _ => exact absurd rfl h
  · rintro ⟨hne, rfl⟩
    exact .kind ((namedAs_iff ..).mpr rfl) hne

theorem getBytesContent_err (v : Metainfo) (e : MetainfoError) : v.getBytesContent = .err e ↔ WrongValue .bytes v e := by
  rw [wrongKind_iff _ _ _ (by simp)]
  constructor
  · intro h
    cases v <;> cases h <;> exact ⟨by simp [Metainfo.typeName, Kind.name], rfl⟩
  · rintro ⟨h, rfl⟩
    cases v <;> first | rfl | exact absurd rfl h

theorem getIntegerContent_err (v : Metainfo) (e : MetainfoError) : v.getIntegerContent = .err e ↔ WrongValue .number v e := by
  rw [wrongKind_iff _ _ _ (by simp)]
  constructor
  · intro h
    cases v <;> cases h <;> exact ⟨by simp [Metainfo.typeName, Kind.name], rfl⟩
  · rintro ⟨h, rfl⟩
    cases v <;> first | rfl | exact absurd rfl h

theorem getListContent_err (v : Metainfo) (e : MetainfoError) : v.getListContent = .err e ↔ WrongValue .list v e := by
  rw [wrongKind_iff _ _ _ (by simp)]
  constructor
  · intro h
    cases v <;> cases h <;> exact ⟨by simp [Metainfo.typeName, Kind.name], rfl⟩
  · rintro ⟨h, rfl⟩
    cases v <;> first | rfl | exact absurd rfl h

theorem getStringContent_err (v : Metainfo) (e : MetainfoError) : v.getStringContent = .err e ↔ WrongValue .text v e := by
  constructor
  · intro h
    cases v with
    | string s =>
      simp only [Metainfo.getStringContent] at h
      split at h
      · cases h
      · rename_i hs
        cases h
        exact .text (fun ht => hs ((text_iff s).mpr ht))
    | _ =>
      simp only [Metainfo.getStringContent, Res.err.injEq] at h
      subst h
      exact .kind ((namedAs_iff ..).mpr rfl) (by simp [Metainfo.typeName, Kind.name])
  · intro h
    cases h with
    | kind hn hne =>
      rw [(namedAs_iff ..).mp hn] at hne ⊢
      cases v <;> first | rfl | exact absurd rfl hne
    | text ht =>
      simp only [Metainfo.getStringContent]
      rw [if_neg (fun hs => ht ((text_iff _).mp hs))]

/-- C107: looking up an entry of a certain kind fails exactly when it is not there or not of that kind, and the error says which. -/
theorem C107_accessors (m : Metainfo) (key : Bytes) (e : MetainfoError) :
    (m.getBytesFromDict key = .err e ↔ Wrong .bytes key m e) ∧ (m.getStringFromDict key = .err e ↔ Wrong .text key m e) ∧
      (m.getIntegerFromDict key = .err e ↔ Wrong .number key m e) ∧ (m.getListFromDict key = .err e ↔ Wrong .list key m e) :=
  ⟨wrong_iff _ _ getBytesContent_err .., wrong_iff _ _ getStringContent_err .., wrong_iff _ _ getIntegerContent_err ..,
    wrong_iff _ _ getListContent_err ..⟩

/-- Non-vacuity. -/
example : (Metainfo.dictionary [(b!"a", .list [])]).getIntegerFromDict b!"a" = .err (.badMetainfoMatch b!"Integer" b!"List") ∧
    (Metainfo.dictionary [(b!"a", .integer 1)]).getListFromDict b!"a" = .err (.badMetainfoMatch b!"List" b!"Integer") ∧
    (Metainfo.dictionary [(b!"a", .string [0xFF])]).getStringFromDict b!"a" = .err .utf8ConversionError ∧
    (Metainfo.dictionary [(b!"a", .nothing)]).getBytesFromDict b!"b" = .err (.noKeyInDictionary b!"b") ∧
    (Metainfo.string b!"a").getBytesFromDict b!"a" = .err (.badMetainfoMatch b!"Dictionary" b!"String") := ⟨rfl, rfl, rfl, rfl, rfl⟩

/-! ### File entries and metadata -/

theorem bind_eq_err {ε α β : Type} {x : Res ε α} {f : α → Res ε β} {e : ε} : (x >>= f) = .err e ↔ x = .err e ∨ ∃ a, x = .ok a ∧ f a = .err e := by
  cases x <;> simp

theorem pathComponents_err (l : List Metainfo) (e : MetainfoError) : pathComponents l = .err e ↔
    ∃ (ps : List Bytes) (v : Metainfo) (rest : List Metainfo), l = ps.map .string ++ v :: rest ∧ (∀ p ∈ ps, Text p) ∧ WrongValue .text v e := by
  induction l with
  | nil =>
    simp only [pathComponents, reduceCtorEq, false_iff]
    rintro ⟨ps, v, rest, h, -⟩
    cases ps <;> cases h
  | cons a t ih =>
    rw [pathComponents]
    constructor
    · intro h
      cases ha : a.getStringContent with
      | ok s =>
        rw [ha, Res.bind_ok] at h
        have hs : a = .string s ∧ Text s := by
          cases a with
          | string s' =>
            simp only [Metainfo.getStringContent] at ha
            split at ha
            · rename_i hv
              cases ha
              exact ⟨rfl, (text_iff _).mp hv⟩
            · cases ha
          | _ => cases ha
        obtain ⟨rfl, hs⟩ := hs
        cases hr : pathComponents t with
        | err e' =>
          rw [hr] at h
          cases h
          obtain ⟨ps, v, rest, rfl, hp, hw⟩ := ih.mp hr
          refine ⟨s :: ps, v, rest, rfl, ?_, hw⟩
          intro p hp'
          rcases List.mem_cons.mp hp' with rfl | hp'
          · exact hs
          · exact hp p hp'
        | _ => rw [hr] at h; cases h
      | err e' =>
        rw [ha] at h
        cases h
        exact ⟨[], a, t, rfl, by simp, (getStringContent_err ..).mp ha⟩
      | panic => rw [ha] at h; cases h
      | hang => rw [ha] at h; cases h
    · rintro ⟨ps, v, rest, h, hp, hw⟩
      cases ps with
      | nil =>
        cases h
        rw [(getStringContent_err ..).mpr hw]
        rfl
      | cons p ps =>
        cases h
        have : pathComponents (ps.map .string ++ v :: rest) = .err e := ih.mpr ⟨ps, v, rest, rfl, fun q hq => hp q (List.mem_cons_of_mem _ hq), hw⟩
        simp only [Metainfo.getStringContent]
        rw [if_pos ((text_iff p).mpr (hp p (by simp))), Res.bind_ok]
        exact bind_eq_err.mpr (.inl this)

theorem integer_dict {m : Metainfo} {k : Bytes} {n : Nat} (h : m.getIntegerFromDict k = .ok n) : ∃ d, m = .dictionary d ∧ At d k (.integer n) := by
  cases m with
  | dictionary d => exact ⟨d, rfl, (getInteger_iff ..).mp h⟩
  | _ => cases h

theorem bytes_dict {m : Metainfo} {k s : Bytes} (h : m.getBytesFromDict k = .ok s) : ∃ d, m = .dictionary d ∧ At d k (.string s) := by
  cases m with
  | dictionary d => exact ⟨d, rfl, (getBytes_iff ..).mp h⟩
  | _ => cases h

/-- C107: what is wrong with a file entry. -/
theorem C107_file (m : Metainfo) (e : MetainfoError) : File.fromMetainfo m = .err e ↔ WrongFile m e := by
  unfold File.fromMetainfo
  constructor
  · intro h
    rcases bind_eq_err.mp h with h | ⟨n, hn, h⟩
    · exact .length ((C107_accessors ..).2.2.1.mp h)
    · obtain ⟨d, rfl, hn'⟩ := integer_dict hn
      rcases bind_eq_err.mp h with h | ⟨l, hl, h⟩
      · exact .path hn' ((C107_accessors ..).2.2.2.mp h)
      · have hl := (getList_iff ..).mp hl
        rcases bind_eq_err.mp h with h | ⟨ps, -, h⟩
        · obtain ⟨ps, v, rest, rfl, hp, hw⟩ := (pathComponents_err ..).mp h
          exact .part hn' hl hp hw
        · cases h
  · intro h
    cases h with
    | length h => exact bind_eq_err.mpr (.inl ((C107_accessors ..).2.2.1.mpr h))
    | path hn h => exact bind_eq_err.mpr (.inr ⟨_, (getInteger_iff ..).mpr hn, bind_eq_err.mpr (.inl ((C107_accessors ..).2.2.2.mpr h))⟩)
    | part hn hl hp hw =>
      exact bind_eq_err.mpr (.inr ⟨_, (getInteger_iff ..).mpr hn, bind_eq_err.mpr (.inr ⟨_, (getList_iff ..).mpr hl,
        bind_eq_err.mpr (.inl ((pathComponents_err ..).mpr ⟨_, _, _, rfl, hp, hw⟩))⟩)⟩)

/-- Non-vacuity: the second part of the path is no text, the third is not even a string. -/
example : File.fromMetainfo (.dictionary [(b!"length", .integer 1), (b!"path", .list [.string b!"a", .string [0xFF], .integer 1])]) = .err .utf8ConversionError ∧
    File.fromMetainfo (.dictionary [(b!"length", .integer 1), (b!"path", .list [.string b!"a", .string b!"b", .integer 1])]) =
      .err (.badMetainfoMatch b!"String" b!"Integer") := ⟨rfl, rfl⟩

theorem mapErr_eq_err {ε ε' α : Type} {f : ε → ε'} {x : Res ε α} {e : ε'} : x.mapErr f = .err e ↔ ∃ e', x = .err e' ∧ e = f e' := by
  cases x <;> simp [eq_comm]

theorem toOption_err {ε ε' α : Type} {x : Res ε α} {e : ε'} : (x.toOption : Res ε' (Option α)) ≠ .err e := by
  cases x <;> simp [Res.toOption]

/-- C107: what is wrong with metadata. -/
theorem C107_info (m : Metainfo) (e : InfoError) : Info.fromMetainfo m = .err e ↔ ∃ e', WrongInfo m e' ∧ e = .metainfoError e' := by
  unfold Info.fromMetainfo
  constructor
  · intro h
    rcases bind_eq_err.mp h with h | ⟨s, hs, h⟩
    · obtain ⟨e', h', rfl⟩ := mapErr_eq_err.mp h
      exact ⟨e', .pieces ((C107_accessors ..).1.mp h'), rfl⟩
    obtain ⟨d, rfl, hs'⟩ := bytes_dict (mapErr_eq_ok hs)
    rcases bind_eq_err.mp h with h | ⟨n, hn, h⟩
    · obtain ⟨e', h', rfl⟩ := mapErr_eq_err.mp h
      exact ⟨e', .pieceLength hs' ((C107_accessors ..).2.2.1.mp h'), rfl⟩
    have hn := (getInteger_iff ..).mp (mapErr_eq_ok hn)
    rcases bind_eq_err.mp h with h | ⟨nm, -, h⟩
    · obtain ⟨e', h', rfl⟩ := mapErr_eq_err.mp h
      exact ⟨e', .name hs' hn ((C107_accessors ..).2.1.mp h'), rfl⟩
    rcases bind_eq_err.mp h with h | ⟨_, -, h⟩
    · exact absurd h toOption_err
    rcases bind_eq_err.mp h with h | ⟨_, -, h⟩
    · exact absurd h toOption_err
    cases h
  · rintro ⟨e', h, rfl⟩
    cases h with
    | pieces h => exact bind_eq_err.mpr (.inl (mapErr_eq_err.mpr ⟨_, (C107_accessors ..).1.mpr h, rfl⟩))
    | pieceLength hs h =>
      exact bind_eq_err.mpr (.inr ⟨_, by rw [(getBytes_iff ..).mpr hs]; rfl, bind_eq_err.mpr (.inl (mapErr_eq_err.mpr ⟨_, (C107_accessors ..).2.2.1.mpr h, rfl⟩))⟩)
    | name hs hn h =>
      exact bind_eq_err.mpr (.inr ⟨_, by rw [(getBytes_iff ..).mpr hs]; rfl, bind_eq_err.mpr (.inr ⟨_, by rw [(getInteger_iff ..).mpr hn]; rfl,
        bind_eq_err.mpr (.inl (mapErr_eq_err.mpr ⟨_, (C107_accessors ..).2.1.mpr h, rfl⟩))⟩)⟩)

/-- C107: what is wrong with bytes that should be metadata, such as those received from a peer. -/
theorem C107_bytes (c : Bytes) (e : InfoError) : Info.fromBytes c = .err e ↔ WrongBytes c e := by
  unfold Info.fromBytes
  constructor
  · intro h
    rcases bind_eq_err.mp h with h | ⟨⟨m, n⟩, hm, h⟩
    · obtain ⟨e', h', rfl⟩ := mapErr_eq_err.mp h
      obtain ⟨x, hx, hr⟩ := (C107_decoder ..).mp h'
      exact .decoder hx hr
    · obtain ⟨e', hw, rfl⟩ := (C107_info ..).mp h
      exact .metainfo ((readFrom_iff ..).mpr ⟨n, mapErr_eq_ok hm⟩) hw
  · intro h
    cases h with
    | decoder hx hr => exact bind_eq_err.mpr (.inl (mapErr_eq_err.mpr ⟨_, (C107_decoder ..).mpr ⟨_, hx, hr⟩, rfl⟩))
    | metainfo hm hw =>
      obtain ⟨n, hm⟩ := (readFrom_iff ..).mp hm
      exact bind_eq_err.mpr (.inr ⟨_, by rw [hm]; rfl, (C107_info ..).mpr ⟨_, hw, rfl⟩⟩)

/-- C107: no length is reported exactly when there is none: neither files nor the length of a single file. -/
theorem C107_length (i : Info) (e : InfoError) : i.getFiles = .err e ↔ e = .noFileLength ∧ i.files = none ∧ i.length = none := by
  unfold Info.getFiles
  cases i.files with
  | some fs => simp
  | none => cases i.length <;> simp [eq_comm]

/-- Non-vacuity. -/
example : Info.fromBytes b!"d6:pieces1:x12:piece lengthi16e4:namei1ee" = .err (.metainfoError (.badMetainfoMatch b!"String" b!"Integer")) ∧
    Info.fromBytes b!"d6:pieces1:x12:piece lengthi-16e4:name1:ae" = .err (.decoderError (.badNumberDecode [])) ∧
    Info.fromBytes b!"<html>" = .err (.metainfoError (.badMetainfoMatch b!"Dictionary" b!"Nothing")) ∧
    (Info.mk none none b!"a" 1 []).getFiles = .err .noFileLength := ⟨rfl, rfl, rfl, rfl⟩

/-! ### Trackers -/

theorem first_or_all (p : Nat → Prop) (n : Nat) : (∀ i, i < n → p i) ∨ ∃ j, j < n ∧ (∀ i, i < j → p i) ∧ ¬ p j := by
  induction n with
  | zero => exact .inl (by omega)
  | succ n ih =>
    rcases ih with h | ⟨j, h1, h2, h3⟩
    · by_cases hn : p n
      · refine .inl fun i hi => ?_
        by_cases e : i = n
        · exact e ▸ hn
        · exact h i (by omega)
      · exact .inr ⟨n, by omega, h, hn⟩
    · exact .inr ⟨j, by omega, h2, h3⟩

theorem udpExchange_err (net : UdpNet) (infoHash peerId : Bytes) (url : TrackerUrl) (h : Bytes) (p : Nat) (hh : url.hostStr = some h)
    (hp : url.port = some p) (e : UdpTrackerError) : (udpExchange net infoHash peerId ⟨[], 0⟩).1 = .err e ↔ UdpWrong net url e := by
  have key : (∀ i, i < 4 → net.recv i = .failed) ∧ (udpExchange net infoHash peerId ⟨[], 0⟩).1 = .err .noConnectionEstablished ∨
      ∃ j, j < 4 ∧ (∀ i, i < j → net.recv i = .failed) ∧ (net.recv j = .never ∧ (udpExchange net infoHash peerId ⟨[], 0⟩).1 = .hang ∨
        ∃ c, net.recv j = .datagram c ∧ (net.send (j + 1) = false ∧ (udpExchange net infoHash peerId ⟨[], 0⟩).1 = .err .sendError ∨
          net.send (j + 1) = true ∧ (net.recv (j + 1) = .failed ∧ (udpExchange net infoHash peerId ⟨[], 0⟩).1 = .err .recieveError ∨
            net.recv (j + 1) = .never ∧ (udpExchange net infoHash peerId ⟨[], 0⟩).1 = .hang ∨
            ∃ d, net.recv (j + 1) = .datagram d ∧ (udpExchange net infoHash peerId ⟨[], 0⟩).1 =
              if 26 < d.length then .ok ((d.take 4000).drop 20) else .err .wrongResponseSize))) := by
    obtain ⟨k, -, h2, h3, -, h5, h6, h7⟩ := connectLoop_spec net (makeConnectionMessage transactionId) 4 ⟨[], 0⟩ (List.replicate 16 0) (by simp)
    simp only [Nat.zero_add, List.nil_append] at h2 h3 h5 h6 h7
    have split : ∀ r s, connectLoop net (makeConnectionMessage transactionId) 4 ⟨[], 0⟩ (List.replicate 16 0) = (r, s) →
        connectToTracker net transactionId ⟨[], 0⟩ = (r, s) := fun _ _ h => h
    generalize connectLoop net (makeConnectionMessage transactionId) 4 ⟨[], 0⟩ (List.replicate 16 0) = x at *
    obtain ⟨r, sent, recvs⟩ := x
    have hx := split _ _ rfl
    unfold udpExchange
    rw [hx]
    simp only at h2 h3 h5 h6 h7
    by_cases hall : ∀ i, i < 4 → net.recv i = .failed
    · obtain ⟨-, rfl⟩ := h5 hall
      exact .inl ⟨hall, rfl⟩
    · have : ∃ j, j < 4 ∧ (∀ i, i < j → net.recv i = .failed) ∧ net.recv j ≠ .failed := by
        rcases first_or_all (fun i => net.recv i = .failed) 4 with h | h
        · exact absurd h hall
        · exact h
      obtain ⟨j, hj, hf, hn⟩ := this
      refine .inr ⟨j, hj, hf, ?_⟩
      cases hr : net.recv j with
      | failed => exact absurd hr hn
      | never =>
        obtain ⟨-, rfl⟩ := h7 j hj hf hr
        exact .inl ⟨rfl, rfl⟩
      | datagram c =>
        obtain ⟨rfl, rfl⟩ := h6 j c hj hf hr
        refine .inr ⟨c, rfl, ?_⟩
        subst h2 h3
        simp only [sendUdp, List.length_replicate]
        cases hs : net.send (j + 1) with
        | false => exact .inl ⟨rfl, rfl⟩
        | true =>
          refine .inr ⟨rfl, ?_⟩
          simp only [if_true]
          cases hr' : net.recv (j + 1) with
          | failed => refine .inl ⟨rfl, ?_⟩; simp [readAnnounce, readUdp, hr']
          | never => refine .inr (.inl ⟨rfl, ?_⟩); simp [readAnnounce, readUdp, hr']
          | datagram d => exact .inr (.inr ⟨d, rfl, readAnnounce_datagram _ _ d hr'⟩)
  have same : ∀ {j j' : Nat}, (∀ i, i < j → net.recv i = .failed) → net.recv j ≠ .failed → (∀ i, i < j' → net.recv i = .failed) → net.recv j' ≠ .failed → j = j' := by
    intro j j' h1 h2 h3 h4
    rcases Nat.lt_trichotomy j j' with h | h | h
    · exact absurd (h3 j h) h2
    · exact h
    · exact absurd (h1 j' h) h4
  constructor
  · intro he
    rcases key with ⟨h1, h2⟩ | ⟨j, hj, hf, ⟨-, h2⟩ | ⟨c, hc, ⟨hs, h2⟩ | ⟨hs, ⟨hr, h2⟩ | ⟨-, h2⟩ | ⟨d, hd, h2⟩⟩⟩⟩
    · rw [h2] at he; cases he; exact .connection hh hp h1
    · rw [h2] at he; cases he
    · rw [h2] at he; cases he; exact .send hh hp hj hf hc hs
    · rw [h2] at he; cases he; exact .receive hh hp hj hf hc hs hr
    · rw [h2] at he; cases he
    · rw [h2] at he
      split at he
      · cases he
      · cases he; exact .size hh hp hj hf hc hs hd (by omega)
  · intro hw
    cases hw with
    | host h' => rw [hh] at h'; cases h'
    | port h' h'' => rw [hp] at h''; cases h''
    | connection _ _ hall =>
      rcases key with ⟨-, h2⟩ | ⟨j, hj, -, ⟨h1, -⟩ | ⟨c, hc, -⟩⟩
      · exact h2
      · rw [hall j hj] at h1; cases h1
      · rw [hall j hj] at hc; cases hc
    | send _ _ hj' hf' hc' hs' =>
      rcases key with ⟨h1, -⟩ | ⟨j, hj, hf, hk⟩
      · rw [h1 _ hj'] at hc'; cases hc'
      · obtain rfl : j = _ := same hf (by rcases hk with ⟨h, -⟩ | ⟨c, h, -⟩ <;> simp [h]) hf' (by simp [hc'])
        rcases hk with ⟨h, -⟩ | ⟨c, h, ⟨-, h2⟩ | ⟨hs, -⟩⟩
        · rw [h] at hc'; cases hc'
        · exact h2
        · rw [hs] at hs'; cases hs'
    | receive _ _ hj' hf' hc' hs' hr' =>
      rcases key with ⟨h1, -⟩ | ⟨j, hj, hf, hk⟩
      · rw [h1 _ hj'] at hc'; cases hc'
      · obtain rfl : j = _ := same hf (by rcases hk with ⟨h, -⟩ | ⟨c, h, -⟩ <;> simp [h]) hf' (by simp [hc'])
        rcases hk with ⟨h, -⟩ | ⟨c, h, ⟨hs, -⟩ | ⟨-, ⟨-, h2⟩ | ⟨hr, -⟩ | ⟨d, hr, -⟩⟩⟩
        · rw [h] at hc'; cases hc'
        · rw [hs] at hs'; cases hs'
        · exact h2
        · rw [hr] at hr'; cases hr'
        · rw [hr] at hr'; cases hr'
    | size _ _ hj' hf' hc' hs' hr' hle =>
      rcases key with ⟨h1, -⟩ | ⟨j, hj, hf, hk⟩
      · rw [h1 _ hj'] at hc'; cases hc'
      · obtain rfl : j = _ := same hf (by rcases hk with ⟨h, -⟩ | ⟨c, h, -⟩ <;> simp [h]) hf' (by simp [hc'])
        rcases hk with ⟨h, -⟩ | ⟨c, h, ⟨hs, -⟩ | ⟨-, ⟨hr, -⟩ | ⟨hr, -⟩ | ⟨d, hr, h2⟩⟩⟩
        · rw [h] at hc'; cases hc'
        · rw [hs] at hs'; cases hs'
        · rw [hr] at hr'; cases hr'
        · rw [hr] at hr'; cases hr'
        · rw [hr] at hr'; cases hr'; rw [h2, if_neg (by omega)]

/-- C107: the error for a UDP tracker says what went wrong, once the socket can be had and pointed at the tracker (a failure of which is a panic, C63). -/
theorem C107_udp (net : UdpNet) (infoHash peerId : Bytes) (url : TrackerUrl) (hb : net.bind = true) (hc : ∀ a, net.connect a = true)
    (e : UdpTrackerError) : (udpCall net infoHash peerId url).1 = .err e ↔ UdpWrong net url e := by
  unfold udpCall
  simp only [hb, Bool.not_true, Bool.false_eq_true, if_false]
  cases hh : url.hostStr with
  | none =>
    constructor
    · intro h; cases h; exact .host hh
    · intro h
      cases h with
      | host => rfl
      | _ h' => rw [hh] at h'; cases h'
  | some a =>
    cases hp : url.port with
    | none =>
      constructor
      · intro h; cases h; exact .port hh hp
      · intro h
        cases h with
        | host h' => rw [hh] at h'; cases h'
        | port => rfl
        | _ _ h' => rw [hp] at h'; cases h'
    | some p =>
      simp only [hc, if_true]
      exact udpExchange_err net infoHash peerId url a p hh hp e

/-- C107: the error for an HTTP tracker says what went wrong. -/
theorem C107_http (http : Bytes → HttpGet) (infoHash peerId : Bytes) (url : TrackerUrl) (e : TcpTrackerError) :
    tcpCall http infoHash peerId url = .err e ↔ HttpWrong http (announceUrl url infoHash peerId) e := by
  unfold tcpCall
  generalize announceUrl url infoHash peerId = u
  constructor
  · intro h
    cases hu : http u with
    | failed => rw [hu] at h; cases h; exact .failed hu
    | broken => rw [hu] at h; cases h; exact .broken hu
    | body b =>
      simp only [hu] at h
      rcases bind_eq_err.mp h with h | ⟨⟨m, n⟩, hm, h⟩
      · obtain ⟨e', h', rfl⟩ := mapErr_eq_err.mp h
        obtain ⟨x, hx, hr⟩ := (C107_decoder ..).mp h'
        exact .decoder hu hx hr
      · obtain ⟨e', h', rfl⟩ := mapErr_eq_err.mp h
        exact .metainfo hu ((readFrom_iff ..).mpr ⟨n, mapErr_eq_ok hm⟩) ((C107_accessors ..).1.mp h')
  · intro h
    cases h with
    | failed h => rw [h]
    | broken h => rw [h]
    | decoder h hx hr =>
      simp only [h]
      exact bind_eq_err.mpr (.inl (mapErr_eq_err.mpr ⟨_, (C107_decoder ..).mpr ⟨_, hx, hr⟩, rfl⟩))
    | metainfo h hm hw =>
      simp only [h]
      obtain ⟨n, hm⟩ := (readFrom_iff ..).mp hm
      exact bind_eq_err.mpr (.inr ⟨_, by rw [hm]; rfl, mapErr_eq_err.mpr ⟨_, (C107_accessors ..).1.mpr hw, rfl⟩⟩)

/-- Non-vacuity: the four connect requests fail; a failure reply of an HTTP tracker is reported as a missing key. -/
example : (udpCall ⟨true, fun _ => true, fun _ => true, fun _ => .failed⟩ [] [] ⟨b!"udp", some b!"h", some 1, []⟩).1 = .err .noConnectionEstablished ∧
    tcpCall (fun _ => .body b!"d14:failure reason4:goneee") [] [] ⟨b!"http", none, none, b!"http://t"⟩ = .err (.metainfo (.noKeyInDictionary b!"peers")) :=
  ⟨rfl, rfl⟩

/-! ### Where the error is wrong -/

/-- The full C107 is false: an answer of exactly 26 bytes, which is the right size for one peer, is reported as "less than 26 bytes" (src/tracker/udp_tracker.rs:11). -/
theorem C107_refuted_size (c header hash peerId host str : Bytes) (port : Nat) (x : Addr) (hh : header.length = 20) :
    (header ++ x.compact).length = 26 ∧
      (udpCall (answers c (header ++ x.compact)) hash peerId ⟨b!"udp", some host, some port, str⟩).1 = .err .wrongResponseSize := by
  have hl : (header ++ x.compact).length = 26 := by rw [List.length_append, hh]; simp [Addr.compact]
  refine ⟨hl, ?_⟩
  rw [udpCall_answers, if_neg (by omega)]

/-- ... a failure to write the cache is reported as "no info file found", though the file is there - it has just been made (src/torrent/info.rs:80-90). -/
theorem C107_refuted_save (i : Info) (cwd : Loc) (fs : FS) (path : Bytes) (room : Nat) (l : Loc) (fs' : FS)
    (ho : fs.openCreate cwd (PathBuf.parse path) = .ok (l, fs')) (hr : room < i.json.length) :
    (i.save cwd fs path room).1 = .err (.noInfoFile path) ∧ (i.save cwd fs path room).2 l = some (.file (i.json.take room)) := by
  unfold Info.save
  rw [ho]
  simp [hr, FS.set]

/-- C107 for the cache, exactly: "no info file found" at the place of the cache is reported just if there is no file there or one that is not text. Missing: telling the
two apart. -/
theorem C107_cache_partial (cwd : Loc) (fs : FS) (infoHash : Bytes) (h : 2 < infoHash.length) (hd : fs (cwd ++ [b!"downloads"]) = some .dir) (e : InfoError) :
    Info.fromFile cwd fs (cachePath infoHash) = .err e ↔ e = .noInfoFile (cachePath infoHash) ∧
      ∀ c, fs (cwd ++ [b!"downloads", percentEncode infoHash]) = some (.file c) → ¬ Text c := by
  rw [Info.fromFile, readToString_cache h hd, readFile, cacheLoc]
  cases hn : fs (cwd ++ [b!"downloads", percentEncode infoHash]) with
  | none => exact ⟨fun h' => by cases h'; exact ⟨rfl, by simp⟩, fun ⟨h', _⟩ => by rw [h']; rfl⟩
  | some n =>
    cases n with
    | dir => exact ⟨fun h' => by cases h'; exact ⟨rfl, by simp⟩, fun ⟨h', _⟩ => by rw [h']; rfl⟩
    | file c =>
      simp only [Option.bind_some, Option.some.injEq, Node.file.injEq, forall_eq']
      rw [← text_iff]
      by_cases hv : validUtf8 c = true
      · rw [if_pos hv]
        simp only [hv, not_true_eq_false, and_false, iff_false]
        cases Info.fromJson c <;> simp
      · rw [if_neg hv]
        simp [hv, eq_comm]

/-- ... and a file that is there but is not text is reported as not found, too. -/
theorem C107_refuted_file (cwd : Loc) (fs : FS) (infoHash c : Bytes) (h : 2 < infoHash.length) (hd : fs (cwd ++ [b!"downloads"]) = some .dir)
    (hf : fs (cwd ++ [b!"downloads", percentEncode infoHash]) = some (.file c)) (hc : ¬ Text c) :
    Info.fromFile cwd fs (cachePath infoHash) = .err (.noInfoFile (cachePath infoHash)) := by
  refine (C107_cache_partial cwd fs infoHash h hd _).mpr ⟨rfl, fun c' h' => ?_⟩
  rw [hf] at h'
  cases h'
  exact hc

/-- Non-vacuity of the last three: a cache file with a byte that is no text, and one that could only be begun. -/
example : ∃ fs : FS, fs [b!"downloads"] = some .dir ∧ fs [b!"downloads", percentEncode b!"abc"] = some (.file [0xFF]) ∧ ¬ Text [0xFF] :=
  ⟨fun l => if l = [b!"downloads"] then some .dir else some (.file [0xFF]), by simp, by simp, fun h => by
    have := (text_iff _).mpr h
    revert this
    decide⟩

example : ∃ (fs fs' : FS) (l : Loc), fs.openCreate [] (PathBuf.parse b!"x") = .ok (l, fs') ∧ 3 < (Info.mk none none b!"a" 1 []).json.length :=
  ⟨fun _ => none, _, _, rfl, by decide +kernel⟩

end RustBit
