/-
C100: what the program logs about its peers is readable.
-/
import Verif.Props.LogRead
import Verif.Props.LogTells
import Verif.Props.Text

namespace RustBit
open Spec

/-! ### Errors of the decoder -/

/-- What was no number is text. -/
def ErrText (e : DecoderError) : Prop := ∀ s, e = .badNumberDecode s → validUtf8 s = true

theorem digits_errText {c : Bytes} {p : Nat} {e : DecoderError} (h : Decoder.getConsecutiveDigits c p = .err e) : ErrText e := by
  unfold Decoder.getConsecutiveDigits at h
  split at h
  · cases h
  · rename_i k hk
    unfold slice at h
    split at h
    · rename_i hs
      simp only [Res.bind_ok] at h
      split at h
      · split at h
        · cases h
        · rename_i hv _ _; cases h; intro s hs; cases hs; exact hv
      · cases h; intro s hs; cases hs
    · cases h

theorem parseString_errText {c : Bytes} {p : Nat} {e : DecoderError} (h : Decoder.parseString c p = .err e) : ErrText e := by
  unfold Decoder.parseString at h
  cases hd : Decoder.getConsecutiveDigits c p with
  | ok a =>
    obtain ⟨n, p1⟩ := a
    rw [hd] at h
    simp only [Res.bind_ok, slice] at h
    split at h <;> simp at h
  | err e' => rw [hd] at h; simp at h; subst h; exact digits_errText hd
  | panic => rw [hd] at h; simp at h
  | hang => rw [hd] at h; simp at h

theorem decode_errText (f : Nat) : (∀ c p e, Decoder.decodeF f c p = .err e → ErrText e) ∧
    (∀ c p acc e, Decoder.listLoop f c p acc = .err e → ErrText e) ∧
    (∀ c p acc e, Decoder.dictLoop f c p acc = .err e → ErrText e) := by
  induction f with
  | zero => refine ⟨?_, ?_, ?_⟩ <;> intros <;> simp_all [Decoder.decodeF, Decoder.listLoop, Decoder.dictLoop]
  | succ f ih =>
    obtain ⟨ih1, ih2, ih3⟩ := ih
    refine ⟨?_, ?_, ?_⟩
    · intro c p e h
      rw [Decoder.decodeF] at h
      split at h
      · cases h
      · split at h
        · unfold Decoder.parseInteger at h
          cases hd : Decoder.getConsecutiveDigits c (p + 1) with
          | ok a => rw [hd] at h; simp at h
          | err e' => rw [hd] at h; simp at h; subst h; exact digits_errText hd
          | panic => rw [hd] at h; simp at h
          | hang => rw [hd] at h; simp at h
        · split at h
          · exact ih2 _ _ _ _ h
          · split at h
            · exact ih3 _ _ _ _ h
            · split at h
              · cases hd : Decoder.parseString c p with
                | ok a => rw [hd] at h; simp at h
                | err e' => rw [hd] at h; simp at h; subst h; exact parseString_errText hd
                | panic => rw [hd] at h; simp at h
                | hang => rw [hd] at h; simp at h
              · cases h
    · intro c p acc e h
      rw [Decoder.listLoop] at h
      split at h
      · cases h
      · split at h
        · cases h
        · cases hd : Decoder.decodeF f c p with
          | ok a => rw [hd] at h; simp only [Res.bind_ok] at h; exact ih2 _ _ _ _ h
          | err e' => rw [hd] at h; simp at h; subst h; exact ih1 _ _ _ hd
          | panic => rw [hd] at h; simp at h
          | hang => rw [hd] at h; simp at h
    · intro c p acc e h
      rw [Decoder.dictLoop] at h
      split at h
      · cases h
      · split at h
        · cases h
        · cases hd : Decoder.parseString c p with
          | ok a =>
            obtain ⟨k, p1⟩ := a
            rw [hd] at h
            simp only [Res.bind_ok] at h
            split at h
            · cases hv : Decoder.decodeF f c p1 with
              | ok a => rw [hv] at h; simp only [Res.bind_ok] at h; exact ih3 _ _ _ _ h
              | err e' => rw [hv] at h; simp at h; subst h; exact ih1 _ _ _ hv
              | panic => rw [hv] at h; simp at h
              | hang => rw [hv] at h; simp at h
            · cases h; exact fun s hs => by cases hs
          | err e' => rw [hd] at h; simp at h; subst h; exact parseString_errText hd
          | panic => rw [hd] at h; simp at h
          | hang => rw [hd] at h; simp at h

theorem text_plain {l : Bytes} (h : ∀ b ∈ l, b < 128) : Text l := by
  refine ⟨l.map UInt8.toNat, fun n hn => ?_, ?_⟩
  · obtain ⟨b, hb, rfl⟩ := List.mem_map.mp hn
    have : b.toNat < 128 := h b hb
    unfold Scalar
    omega
  · induction l with
    | nil => rfl
    | cons b l ih =>
      have hb : b.toNat < 128 := h b List.mem_cons_self
      rw [List.map_cons, List.flatMap_cons, ← ih fun x hx => h x (List.mem_cons_of_mem _ hx)]
      simp [utf8, hb]

theorem text_decimal (n : Nat) : Text (decimal n) := by
  refine text_plain fun b hb => ?_
  have := decimal_digit n b hb
  simp only [isDigit, Bool.and_eq_true, decide_eq_true_eq] at this
  exact UInt8.lt_of_le_of_lt this.2 (by decide)

theorem text_display {e : DecoderError} (h : ErrText e) : Text e.display := by
  cases e with
  | badNumberFromString n => exact text_append (text_plain (by decide)) (text_decimal n)
  | badNumberDecode s => exact text_append (text_plain (by decide)) ((text_iff s).mp (h s rfl))
  | noStringFound n => exact text_append (text_plain (by decide)) (text_decimal n)
  | badStringFromBytes n => exact text_append (text_plain (by decide)) (text_decimal n)

/-! ### The records of an attempt -/

/-- The operating system says texts. -/
def LogEnv.Texts (env : LogEnv) : Prop := ∀ k, TextError (env.err k)

theorem keysText_mem {d : List (Bytes × Metainfo)} (h : KeysTextEntries d) {x : Bytes × Metainfo} (hx : x ∈ d) : KeysText x.2 := by
  induction d with
  | nil => cases hx
  | cons a d ih =>
    obtain ⟨k, v⟩ := a
    rcases List.mem_cons.mp hx with rfl | hx
    · exact h.2.1
    · exact ih h.2.2 hx

theorem mapGet_mem' {d : List (Bytes × Metainfo)} {k : Bytes} {v : Metainfo} (h : mapGet d k = some v) : ∃ k', (k', v) ∈ d := by
  rw [mapGet_find?] at h
  cases hf : d.find? (fun e => e.1 = k) with
  | none => rw [hf] at h; cases h
  | some x =>
    rw [hf] at h
    cases h
    exact ⟨x.1, List.mem_of_find?_eq_some hf⟩

theorem decodeLog_text (env : LogEnv) (c : Bytes) : ∀ r ∈ decodeLog env c, TextRecord r := by
  intro r hr
  rcases decodeLog_quiet env c r hr with ⟨n, rfl⟩ | ⟨n, rfl⟩ <;> exact True.intro

theorem newRawLog_text (env : LogEnv) (body : Bytes) (id : UInt8) : ∀ r ∈ newRawLog env body id, TextRecord r := by
  intro r hr
  unfold newRawLog extensionLog at hr
  split at hr
  · split at hr
    · rename_i body' _
      rcases List.mem_append.mp hr with hr | hr
      · exact decodeLog_text env body' r hr
      · split at hr
        · rename_i e he
          rw [List.mem_singleton.mp hr]
          exact text_display ((decode_errText _).1 _ _ _ he)
        · rename_i content n hd
          have hk := C72_keys_are_text _ _ _ hd
          split at hr
          · rename_i e he
            unfold noIntegers at hr
            obtain ⟨⟨k, v⟩, hm, hx⟩ := List.mem_filterMap.mp hr
            have hv : KeysText v := by
              have he' : KeysText e := by
                unfold Metainfo.getValueFromDict Metainfo.getDictContent at he
                cases content with
                | dictionary d =>
                  simp only [Res.bind_ok] at he
                  split at he
                  · rename_i v' hg
                    obtain ⟨k', hk'⟩ := mapGet_mem' hg
                    cases he
                    exact keysText_mem hk hk'
                  · cases he
                | _ => cases he
              cases e with
              | dictionary d => exact keysText_mem he' (x := (k, v)) hm
              | _ => cases hm
            cases v <;> simp only [reduceCtorEq, Option.some.injEq] at hx <;> (rw [← hx]; exact hv)
          · cases hr
        · cases hr
    · cases hr
  · cases hr

theorem applyLog_text {p : Peer} (hp : Text p.id) (m : Message) : ∀ r ∈ p.applyLog m, TextRecord r := by
  intro r hr
  unfold Peer.applyLog at hr
  split at hr
  · rename_i h
    rw [List.mem_singleton.mp hr]
    rcases h with h | h <;> (rw [h]; exact ⟨hp, by decide⟩)
  · split at hr
    · rename_i h
      rcases List.mem_cons.mp hr with rfl | hr
      · rcases h with h | h | h | h <;> (rw [h]; exact ⟨hp, by decide⟩)
      · unfold Peer.contentLog at hr
        split at hr
        · cases hr
        · cases hr
        · cases hr
        · rename_i h1 h2 h3
          rw [List.mem_singleton.mp hr]
          refine ⟨hp, ?_⟩
          unfold TextMessage
          split
          · rename_i e he
            exact absurd he (h2 e)
          · exact True.intro
    · cases hr

theorem readLog_text (env : LogEnv) (net : Net) {p : Peer} (hp : Text p.id) {no : List LogRec} (hno : ∀ r ∈ no, TextRecord r) :
    ∀ r ∈ p.readLog env net no, TextRecord r := by
  intro r hr
  unfold Peer.readLog at hr
  split at hr
  · exact hno r hr
  · rcases List.mem_append.mp hr with hr | hr
    · exact newRawLog_text env _ _ r hr
    · split at hr
      · exact applyLog_text (by exact hp) _ r hr
      · exact hno r hr
      · cases hr

theorem writeLog_text {env : LogEnv} (he : env.Texts) (net : Net) (p : Peer) (b : Bytes) : ∀ r ∈ p.writeLog env net b, TextRecord r := by
  intro r hr
  unfold Peer.writeLog at hr
  split at hr
  · cases hr
  · rw [List.mem_singleton.mp hr]
    exact he _

theorem noMessage_text (b : Bool) : ∀ r ∈ [LogRec.noMessage b], TextRecord r := by
  intro r hr
  rw [List.mem_singleton.mp hr]
  exact True.intro

theorem readyLoopLog_text (env : LogEnv) (net : Net) : ∀ (k : Nat) {p : Peer}, Text p.id → ∀ r ∈ readyLoopLog env net k p, TextRecord r
  | 0, _, _, r, hr => by cases hr
  | k + 1, p, hp, r, hr => by
    rw [readyLoopLog] at hr
    rcases List.mem_append.mp hr with hr | hr
    · exact readLog_text env net hp (noMessage_text false) r hr
    · have hid := (tells_readAndApply (W := False) env net p [.noMessage false] (by simp)).id
      split at hr
      · rename_i q hq
        rw [hq] at hid
        split at hr
        · cases hr
        · exact readyLoopLog_text env net k (by rw [show q.id = p.id from hid]; exact hp) r hr
      · cases hr

theorem initPeerLog_text {env : LogEnv} (he : env.Texts) (net : Net) {p : Peer} (hp : Text p.id) : ∀ r ∈ initPeerLog env net p, TextRecord r := by
  intro r hr
  unfold initPeerLog at hr
  have hid0 : (p.sendMessage net (newHandshake p.infoHash p.id)).id = p.id := (tells_silent (W := False) net p (newHandshake p.infoHash p.id).asBytes).id
  rcases List.mem_append.mp hr with hr | hr
  · exact writeLog_text he net _ _ r hr
  · simp only [] at hr
    generalize p.sendMessage net (newHandshake p.infoHash p.id) = p' at hr hid0
    have hp' : Text p'.id := by rw [hid0]; exact hp
    rcases List.mem_append.mp hr with hr | hr
    · exact readLog_text env net hp' (noMessage_text true) r hr
    · have hid := (tells_readAndApply (W := False) env net p' [.noMessage true] (by simp)).id
      split at hr
      · rename_i q hq
        rw [hq] at hid
        split at hr
        · cases hr
        · rcases List.mem_append.mp hr with hr | hr
          · exact writeLog_text he net _ _ r hr
          · have h1 : (q.sendMessage net newInterested).id = q.id := (tells_silent (W := False) net q newInterested.asBytes).id
            have h2 := (tells_silent (W := False) net (q.sendMessage net newInterested) extensionHandshakeBytes).id
            split at hr
            · cases hr
            · rename_i q' hq'
              have h3 : q'.id = (q.sendMessage net newInterested).id := by
                rw [← h2]
                exact (congrArg (fun x => x.2.id) hq').symm
              exact readyLoopLog_text env net 10 (by rw [h3, h1, show q.id = p'.id from hid]; exact hp') r hr
      · cases hr

theorem execStepLog_text {env : LogEnv} (he : env.Texts) (m : Build) (net : Net) (d : Downloadable) {s : DState} (hp : Text s.peer.id) :
    ∀ r ∈ execStepLog env m net d s, TextRecord r := by
  have tail : ∀ s : DState, ∀ r ∈ execTailLog env m net d s, TextRecord r := by
    intro s r hr
    unfold execTailLog MessageBuffer.requestLog at hr
    split at hr
    · cases hr
    split at hr
    · cases hr
    split at hr
    · cases hr
    split at hr
    · exact writeLog_text he net _ _ r hr
    · cases hr
  intro r hr
  unfold execStepLog at hr
  rcases List.mem_append.mp hr with hr | hr
  · exact readLog_text env net hp (fun r h => by cases h) r hr
  · split at hr
    · exact tail _ r hr
    · exact tail _ r hr
    · cases hr

theorem execRunLog_text {env : LogEnv} (he : env.Texts) (m : Build) (net : Net) (d : Downloadable) : ∀ (f : Nat) {s : DState}, Text s.peer.id →
    ∀ r ∈ execRunLog env m net d f s, TextRecord r
  | 0, _, _, r, hr => by cases hr
  | f + 1, s, hp, r, hr => by
    rw [execRunLog] at hr
    rcases List.mem_append.mp hr with hr | hr
    · exact execStepLog_text he m net d hp r hr
    · have hid := (tells_step (W := False) env m net (fun h => h.elim) d s).id
      split at hr
      · rename_i s' hs
        rw [hs] at hid
        exact execRunLog_text he m net d f (by rw [show s'.peer.id = s.peer.id from hid]; exact hp) r hr
      · cases hr

theorem downloadLoopLog_text {env : LogEnv} (he : env.Texts) (m : Build) (net : Net) (d : Downloadable) (f : Nat) {p : Peer} (hp : Text p.id)
    {full : Bytes → List LogRec} (hf : ∀ b, ∀ r ∈ full b, TextRecord r) : ∀ r ∈ downloadLoopLog env m net d f p full, TextRecord r := by
  intro r hr
  unfold downloadLoopLog at hr
  split at hr
  · rcases List.mem_append.mp hr with hr | hr
    · exact execRunLog_text he m net d f (by exact hp) r hr
    · split at hr
      · exact hf _ r hr
      · cases hr
  · cases hr

/-- C100: everything that is logged in an attempt with a peer is readable in the sense of `C100_read`, whatever the peer sends. -/
theorem C100_attempts {env : LogEnv} (he : env.Texts) (sha : Bytes → Bytes) (m : Build) (net : Net) (f : Nat) {peerId endpoint : Bytes} (hp : Text peerId)
    (hend : Text endpoint) (hash : Bytes) (info : Info) (idx : Nat) :
    (∀ r ∈ getInfoLog env m net f peerId hash, TextRecord r) ∧ ∀ r ∈ downloadRunLog sha env m net f peerId endpoint info idx, TextRecord r := by
  constructor
  · intro r hr
    unfold getInfoLog at hr
    rcases List.mem_append.mp hr with hr | hr
    · exact initPeerLog_text he net (p := Peer.new ⟨[], 0⟩ hash peerId) hp r hr
    · have hid := (tells_initPeer (W := False) env net (fun h => h.elim) (Peer.new ⟨[], 0⟩ hash peerId)).id
      split at hr
      · rename_i q hq
        rw [hq] at hid
        exact downloadLoopLog_text he m net .info f (p := q) (by rw [show q.id = peerId from hid]; exact hp) (decodeLog_text env) r hr
      · cases hr
  · intro r hr
    unfold downloadRunLog at hr
    rcases List.mem_append.mp hr with hr | hr
    · exact initPeerLog_text he net (p := Peer.new ⟨[], 0⟩ (info.computeInfoHash sha) peerId) hp r hr
    · have hid := (tells_initPeer (W := False) env net (fun h => h.elim) (Peer.new ⟨[], 0⟩ (info.computeInfoHash sha) peerId)).id
      split at hr
      · rename_i q hq
        rw [hq] at hid
        have hq' : Text q.id := by rw [show q.id = peerId from hid]; exact hp
        rcases List.mem_cons.mp hr with rfl | hr
        · exact ⟨hq', hend⟩
        · split at hr
          · refine downloadLoopLog_text he m net _ f hq' (fun b r hr => ?_) r hr
            rw [List.mem_singleton.mp hr]
            exact ⟨hq', hend⟩
          · cases hr
      · cases hr

/-- The hypotheses of `C100_attempts` can be met, and the log need not be empty: a peer that says something that is no text, in the middle of a number. -/
example : (⟨fun _ => 0, fun _ => .simple ⟨b!"BrokenPipe", by decide⟩ b!"broken pipe"⟩ : LogEnv).Texts ∧ Text b!"-RB0001-abcdefghijkl" ∧ Text b!"1.2.3.4:80" ∧
    extensionLog ⟨fun _ => 0, fun _ => .simple ⟨b!"BrokenPipe", by decide⟩ b!"broken pipe"⟩ b!"?i-e" = [.notNumber 0, .extensionBad (.badNumberDecode [])] :=
  ⟨fun _ => text_plain (by decide), text_plain (by decide), text_plain (by decide), rfl⟩

end RustBit
