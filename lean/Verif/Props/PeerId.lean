/-
C88: the identity of the client.
-/
import Verif.Model.PeerId
import Verif.Spec.PeerId
import Verif.Props.Tracker
import Verif.Props.Messages
import Verif.Props.Download

namespace RustBit
open Spec

theorem alphanumerics_letter : ∀ k, k < 62 → alphanumerics[k]? = some (letter k) := by
  have h : ∀ k : Fin 62, alphanumerics[k.val]? = some (letter k.val) := by decide +kernel
  exact fun k hk => h ⟨k, hk⟩

theorem upper_bits (w : UInt32) : (w >>> (32 - 6)).toNat = w.toNat / 2 ^ 26 := by
  rw [show (32 - 6 : UInt32) = 26 from rfl, UInt32.toNat_shiftRight]
  rw [show (26 : UInt32).toNat % 32 = 26 from rfl, Nat.shiftRight_eq_div_pow]

theorem sample_step (rng : Nat → UInt32) (f i : Nat) : sampleAlphanumeric rng (f + 1) i =
    match letterOf (rng i).toNat with
    | some c => .ok (c, i + 1)
    | none => sampleAlphanumeric rng f (i + 1) := by
  rw [sampleAlphanumeric]
  unfold letterOf
  have hu := upper_bits (rng i)
  have hiff : (rng i >>> (32 - 6) < 26 + 26 + 10) ↔ (rng i).toNat / 2 ^ 26 < 62 := by
    rw [UInt32.lt_iff_toNat_lt, hu]; exact Iff.rfl
  by_cases h : (rng i).toNat / 2 ^ 26 < 62
  · rw [if_pos (hiff.2 h), if_pos h, hu, alphanumerics_letter _ h]
  · rw [if_neg (fun c => h (hiff.1 c)), if_neg h]

theorem wordsFrom_self (rng : Nat → UInt32) (i : Nat) : wordsFrom rng i i = [] := by simp [wordsFrom]

theorem wordsFrom_cons (rng : Nat → UInt32) {i j : Nat} (h : i < j) : wordsFrom rng i j = (rng i).toNat :: wordsFrom rng (i + 1) j := by
  unfold wordsFrom
  obtain ⟨n, rfl⟩ : ∃ n, j = i + (n + 1) := ⟨j - i - 1, by omega⟩
  rw [show i + (n + 1) - i = n + 1 by omega, show i + (n + 1) - (i + 1) = n by omega, List.range'_succ]
  rfl

theorem wordsFrom_append (rng : Nat → UInt32) {i j k : Nat} (h : i ≤ j) (h' : j ≤ k) :
    wordsFrom rng i k = wordsFrom rng i j ++ wordsFrom rng j k := by
  unfold wordsFrom
  obtain ⟨n, rfl⟩ : ∃ n, j = i + n := ⟨j - i, by omega⟩
  obtain ⟨m, rfl⟩ : ∃ m, k = i + n + m := ⟨k - (i + n), by omega⟩
  rw [show i + n + m - i = n + m by omega, show i + n - i = n by omega, show i + n + m - (i + n) = m by omega, ← List.map_append]
  congr 1
  have := @List.range'_append i n m 1
  rw [Nat.one_mul] at this
  exact this.symm

/-- What one draw does: it takes the words up to and including the first that stands for a letter. -/
theorem sample_spec (rng : Nat → UInt32) : ∀ (f i : Nat),
    (sampleAlphanumeric rng f i = .hang ∧ ∀ k, i ≤ k → k < i + f → letterOf (rng k).toNat = none) ∨
    ∃ k c, sampleAlphanumeric rng f i = .ok (c, k + 1) ∧ i ≤ k ∧ k < i + f ∧ letterOf (rng k).toNat = some c ∧
      ∀ l, i ≤ l → l < k → letterOf (rng l).toNat = none
  | 0, i => .inl ⟨rfl, fun k h1 h2 => by omega⟩
  | f + 1, i => by
    rw [sample_step]
    cases hl : letterOf (rng i).toNat with
    | some c => exact .inr ⟨i, c, rfl, Nat.le_refl _, by omega, hl, fun l h1 h2 => by omega⟩
    | none =>
      rcases sample_spec rng f (i + 1) with ⟨h1, h2⟩ | ⟨k, c, h1, h2, h3, h4, h5⟩
      · refine .inl ⟨h1, fun k hk hk' => ?_⟩
        by_cases e : k = i
        · subst e; exact hl
        · exact h2 k (by omega) (by omega)
      · refine .inr ⟨k, c, h1, by omega, by omega, h4, fun l hl1 hl2 => ?_⟩
        by_cases e : l = i
        · subst e; exact hl
        · exact h5 l (by omega) hl2

theorem lettersOf_none (rng : Nat → UInt32) : ∀ (n i : Nat), (∀ l, i ≤ l → l < i + n → letterOf (rng l).toNat = none) →
    lettersOf (wordsFrom rng i (i + n)) = []
  | 0, i, _ => by rw [Nat.add_zero, wordsFrom_self]; rfl
  | n + 1, i, h => by
    rw [wordsFrom_cons rng (by omega), lettersOf, List.filterMap_cons, h i (Nat.le_refl _) (by omega)]
    have := lettersOf_none rng n (i + 1) (fun l h1 h2 => h l (by omega) (by omega))
    rw [show i + 1 + n = i + (n + 1) by omega] at this
    exact this

theorem lettersOf_first (rng : Nat → UInt32) {i k : Nat} {c : UInt8} (h : i ≤ k) (hc : letterOf (rng k).toNat = some c)
    (hn : ∀ l, i ≤ l → l < k → letterOf (rng l).toNat = none) : lettersOf (wordsFrom rng i (k + 1)) = [c] := by
  have h0 := lettersOf_none rng (k - i) i (fun l h1 h2 => hn l h1 (by omega))
  rw [show i + (k - i) = k by omega] at h0
  rw [wordsFrom_append rng h (Nat.le_succ k), lettersOf, List.filterMap_append]
  have h1 : wordsFrom rng k (k + 1) = [(rng k).toNat] := by rw [wordsFrom_cons rng (by omega), wordsFrom_self]
  rw [show List.filterMap letterOf (wordsFrom rng i k) = [] from h0, h1]
  simp [hc]

/-- What `n` draws do. -/
theorem sampleMany_spec (rng : Nat → UInt32) (f : Nat) : ∀ (n i : Nat),
    (sampleMany rng f n i = .hang ∧ (lettersOf (wordsFrom rng i (i + f))).length < n) ∨
    ∃ s j, sampleMany rng f n i = .ok (s, j) ∧ i ≤ j ∧ s.length = n ∧ lettersOf (wordsFrom rng i j) = s ∧
      (0 < n → i < j ∧ letterOf (rng (j - 1)).toNat ≠ none) ∧ (n = 0 → j = i)
  | 0, i => .inr ⟨[], i, rfl, Nat.le_refl _, rfl, by rw [wordsFrom_self]; rfl, fun h => by omega, fun _ => rfl⟩
  | n + 1, i => by
    unfold sampleMany
    rcases sample_spec rng f i with ⟨h1, h2⟩ | ⟨k, c, h1, h2, h3, h4, h5⟩
    · rw [h1]
      refine .inl ⟨rfl, ?_⟩
      rw [lettersOf_none rng f i h2]
      simp
    · rw [h1]
      have hfirst := lettersOf_first rng h2 h4 h5
      rcases sampleMany_spec rng f n (k + 1) with ⟨g1, g2⟩ | ⟨s, j, g1, g2, g3, g4, g5, g6⟩
      · refine .inl ⟨?_, ?_⟩
        · simp only [Res.bind_ok]; rw [g1]; rfl
        · have e1 := wordsFrom_append rng (i := i) (j := k + 1) (k := i + f) (by omega) (by omega)
          have e2 := wordsFrom_append rng (i := k + 1) (j := i + f) (k := k + 1 + f) (by omega) (by omega)
          rw [e1, lettersOf, List.filterMap_append, show List.filterMap letterOf (wordsFrom rng i (k + 1)) = [c] from hfirst]
          rw [e2, lettersOf, List.filterMap_append] at g2
          simp only [List.length_append, List.length_cons, List.length_nil] at g2 ⊢
          omega
      · refine .inr ⟨c :: s, j, ?_, by omega, by simp [g3], ?_, fun _ => ⟨by omega, ?_⟩, fun h => by omega⟩
        · simp only [Res.bind_ok]; rw [g1]; rfl
        · rw [wordsFrom_append rng (i := i) (j := k + 1) (by omega) g2, lettersOf, List.filterMap_append,
            show List.filterMap letterOf (wordsFrom rng i (k + 1)) = [c] from hfirst]
          exact congrArg (c :: ·) g4
        · rcases Nat.eq_zero_or_pos n with h | h
          · rw [g6 h, Nat.add_sub_cancel, h4]; simp
          · exact (g5 h).2

theorem letter_alnum : ∀ k, k < 62 → IsAlnum (letter k) := by
  have h : ∀ k : Fin 62, IsAlnum (letter k.val) := by simp only [IsAlnum]; decide +kernel
  exact fun k hk => h ⟨k, hk⟩

theorem letterOf_alnum {w : Nat} {c : UInt8} (h : letterOf w = some c) : IsAlnum c := by
  unfold letterOf at h
  split at h
  · rename_i hk; cases h; exact letter_alnum _ hk
  · cases h

/-- C88: a peer id that is generated is made of the letters that successive words of the generator stand for, up to and including the word
of the twentieth; generating one never panics, and it ends exactly if the generator yields twenty words that stand for letters. -/
theorem C88_exact (rng : Nat → UInt32) (i : Nat) :
    (∀ f, generatePeerId rng f i ≠ .panic ∧ ∀ e, generatePeerId rng f i ≠ .err e) ∧
    (∀ f id j, generatePeerId rng f i = .ok (id, j) →
      i < j ∧ id.length = 20 ∧ lettersOf (wordsFrom rng i j) = id ∧ letterOf (rng (j - 1)).toNat ≠ none) ∧
    ((∃ f id j, generatePeerId rng f i = .ok (id, j)) ↔ ∃ j, 20 ≤ (lettersOf (wordsFrom rng i j)).length) := by
  refine ⟨fun f => ?_, fun f id j h => ?_, ⟨fun ⟨f, id, j, h⟩ => ?_, fun ⟨j, h⟩ => ?_⟩⟩
  · rcases sampleMany_spec rng f 20 i with ⟨h, -⟩ | ⟨s, j, h, -⟩ <;>
      exact ⟨(fun c => by rw [generatePeerId, h] at c; cases c), (fun e c => by rw [generatePeerId, h] at c; cases c)⟩
  · rcases sampleMany_spec rng f 20 i with ⟨h', -⟩ | ⟨s, j', h', -, h3, h4, h5, -⟩
    · rw [generatePeerId, h'] at h; cases h
    · rw [generatePeerId, h'] at h; cases h
      exact ⟨(h5 (by omega)).1, h3, h4, (h5 (by omega)).2⟩
  · rcases sampleMany_spec rng f 20 i with ⟨h', -⟩ | ⟨s, j', h', -, h3, h4, -, -⟩
    · rw [generatePeerId, h'] at h; cases h
    · exact ⟨j', by rw [h4, h3]; exact Nat.le_refl _⟩
  · rcases sampleMany_spec rng (j - i) 20 i with ⟨-, h'⟩ | ⟨s, j', h', -⟩
    · exfalso
      rcases Nat.lt_or_ge j i with hji | hji
      · have e : wordsFrom rng i j = [] := by simp [wordsFrom, show j - i = 0 by omega]
        rw [e] at h; simp [lettersOf] at h
      · rw [show i + (j - i) = j by omega] at h'; omega
    · exact ⟨j - i, s, j', h'⟩

/-- C88: every peer id that is generated is twenty letters and digits. -/
theorem C88_shape {rng : Nat → UInt32} {f i j : Nat} {id : Bytes} (h : generatePeerId rng f i = .ok (id, j)) :
    id.length = 20 ∧ ∀ b ∈ id, IsAlnum b := by
  obtain ⟨-, h2, h3, -⟩ := (C88_exact rng i).2.1 f id j h
  refine ⟨h2, fun b hb => ?_⟩
  rw [← h3, lettersOf, List.mem_filterMap] at hb
  obtain ⟨w, -, hw⟩ := hb
  exact letterOf_alnum hw

/-- C88: each letter and digit is as likely as any other: exactly an interval of 2²⁶ words stands for it. -/
theorem C88_uniform (c : UInt8) (hc : IsAlnum c) :
    ∃ k, k < 62 ∧ ∀ w, letterOf w = some c ↔ k * 2 ^ 26 ≤ w ∧ w < k * 2 ^ 26 + 2 ^ 26 := by
  have hex : ∀ c : UInt8, IsAlnum c → ∃ k : Fin 62, letter k.val = c := by
    intro c
    exact byte_forall (p := fun c => IsAlnum c → ∃ k : Fin 62, letter k.val = c) (by simp only [IsAlnum]; decide +kernel) c
  have hinj : ∀ a b : Fin 62, letter a.val = letter b.val → a = b := by decide +kernel
  obtain ⟨k, hk⟩ := hex c hc
  refine ⟨k.val, k.isLt, fun w => ?_⟩
  unfold letterOf
  constructor
  · intro h
    split at h
    · rename_i hw
      have := hinj ⟨w / 2 ^ 26, hw⟩ k (by rw [hk]; exact Option.some.inj h)
      have e : w / 2 ^ 26 = k.val := congrArg Fin.val this
      omega
    · cases h
  · intro ⟨h1, h2⟩
    have e : w / 2 ^ 26 = k.val := by omega
    rw [e, if_pos k.isLt, hk]

/-- C88: every name of twenty letters and digits can come out, whatever has been drawn before. -/
theorem C88_attainable (id : Bytes) (hl : id.length = 20) (ha : ∀ b ∈ id, IsAlnum b) (rng0 : Nat → UInt32) (i : Nat) :
    ∃ rng : Nat → UInt32, (∀ k, k < i → rng k = rng0 k) ∧ generatePeerId rng 1 i = .ok (id, i + 20) := by
  have hw : ∀ c : UInt8, IsAlnum c → ∃ w : UInt32, letterOf w.toNat = some c := by
    intro c hc
    obtain ⟨k, hk, hiff⟩ := C88_uniform c hc
    refine ⟨UInt32.ofNat (k * 2 ^ 26), (hiff _).2 ?_⟩
    rw [UInt32.toNat_ofNat']
    omega
  have key : ∀ (n : Nat) (s : Bytes), s.length = n → (∀ b ∈ s, IsAlnum b) → ∀ (rng0 : Nat → UInt32) (i : Nat),
      ∃ rng : Nat → UInt32, (∀ k, k < i → rng k = rng0 k) ∧ sampleMany rng 1 n i = .ok (s, i + n) := by
    intro n
    induction n with
    | zero =>
      intro s hs _ rng0 i
      obtain rfl := List.length_eq_zero_iff.1 hs
      exact ⟨rng0, fun _ _ => rfl, rfl⟩
    | succ n ih =>
      intro s hs hsa rng0 i
      match s, hs, hsa with
      | c :: s, hs, hsa =>
        obtain ⟨w, hwc⟩ := hw c (hsa c (by simp))
        obtain ⟨rng, hr1, hr2⟩ := ih s (by simpa using hs) (fun b hb => hsa b (by simp [hb])) (fun k => if k = i then w else rng0 k) (i + 1)
        refine ⟨rng, fun k hk => ?_, ?_⟩
        · rw [hr1 k (by omega), if_neg (by omega)]
        · have hi : rng i = w := by rw [hr1 i (by omega)]; simp
          unfold sampleMany
          rw [sample_step, hi, hwc]
          simp only [Res.bind_ok]
          rw [hr2]
          simp only [Res.bind_ok]
          rw [show i + 1 + n = i + (n + 1) by omega]
  exact key 20 id hl ha rng0 i

/-- C88: with a peer id that was generated, everything that carries it is well formed: whatever the peer does, the first thing written on a
connection is a handshake of 68 bytes, the announce request to a UDP tracker has 98 bytes with the id at its place, and the id stands
unescaped in the URL for an HTTP tracker, from which it is read back. Missing: tracker URLs with a query (C67). -/
theorem C88_sent_partial {rng : Nat → UInt32} {f i j : Nat} {id : Bytes} (h : generatePeerId rng f i = .ok (id, j)) (hash : Bytes) (hh : hash.length = 20) :
    (∀ net first, (written (initPeer net (freshPeer hash id)).2.log).head? = some first →
      first.length = 68 ∧ ∃ flags, IsHandshake flags hash id first) ∧
    (∀ cid : Bytes, cid.length = 8 → (makeAnnounceMessage transactionId cid id hash).length = 98 ∧
      FieldAt (makeAnnounceMessage transactionId cid id hash) 36 id) ∧
    (∀ url : TrackerUrl, c!"?" ∉ url.asStr → c!"#" ∉ url.asStr →
      queryParams (announceUrl url hash id) = [(b!"info_hash", hash), (b!"peer_id", id)]) := by
  obtain ⟨hl, ha⟩ := C88_shape h
  refine ⟨fun net first hf => ?_, fun cid hc => ?_, fun url hq hf => (C67_announce_url_partial url hash id hq hf ha).1⟩
  · have e : first = (newHandshake hash id).asBytes := by
      obtain ⟨t, ht⟩ := C31_no_request net hash id
      generalize written (initPeer net (freshPeer hash id)).2.log = w at hf ht
      cases w with
      | nil => cases hf
      | cons x w => cases hf; injection ht
    rw [e]
    exact ⟨C21_handshake hash id hh hl, _, C23_handshake_layout hash id hh hl⟩
  · have := C58_announce_request transactionId cid id hash rfl hc hl hh
    exact ⟨this.1, this.2.2.2.2.2.1⟩

/-- A generator for the cases below: `A`, then 19 words for `B`, then a word that stands for nothing, then `C` for ever. -/
def sampleWords (i : Nat) : UInt32 := if i = 0 then 5 else if i < 20 then 0x04000000 else if i = 20 then 0xffffffff else 0x0a000000

/-- Non-vacuity: with it, the first peer id is `ABB…B`, the second `CCC…C`, after one more word. -/
example : generatePeerId sampleWords 2 0 = .ok (b!"ABBBBBBBBBBBBBBBBBBB", 20) ∧
    generatePeerId sampleWords 2 20 = .ok (b!"CCCCCCCCCCCCCCCCCCCC", 41) := by decide +kernel

/-- Not every generator yields a peer id: with one that yields only words that stand for nothing the client draws for ever. -/
example (f i : Nat) : generatePeerId (fun _ => 0xffffffff) f i = .hang := by
  have : ∀ f i, sampleAlphanumeric (fun _ => 0xffffffff) f i = .hang := by
    intro f
    induction f with
    | zero => exact fun _ => rfl
    | succ f ih => intro i; rw [sample_step, show letterOf (0xffffffff : UInt32).toNat = none by decide +kernel]; exact ih _
  unfold generatePeerId sampleMany
  rw [this]
  rfl

/-- C88 is false where it says that the client has one identity: a new id is drawn for every lookup (src/tracker/mod.rs:31) and for every
connection (src/peer/mod.rs:39), so the id announced to a tracker is not the one presented to the peers that the tracker names. The same
words are drawn from one after the other: here the announce request carries one id and the handshake of the following connection another. -/
theorem C88_refuted : ∃ (rng : Nat → UInt32) (f j k : Nat) (id id' : Bytes), generatePeerId rng f 0 = .ok (id, j) ∧
    generatePeerId rng f j = .ok (id', k) ∧ ∀ (cid hash : Bytes), cid.length = 8 → hash.length = 20 →
      FieldAt (makeAnnounceMessage transactionId cid id hash) 36 id ∧ ¬ FieldAt (newHandshake hash id').asBytes 48 id := by
  refine ⟨sampleWords, 2, 20, 41, b!"ABBBBBBBBBBBBBBBBBBB", b!"CCCCCCCCCCCCCCCCCCCC", by decide +kernel, by decide +kernel, fun cid hash hc hh => ⟨?_, ?_⟩⟩
  · exact (C58_announce_request transactionId cid _ hash rfl hc rfl hh).2.2.2.2.2.1
  · intro h
    have e : (newHandshake hash b!"CCCCCCCCCCCCCCCCCCCC").asBytes.drop 48 = b!"CCCCCCCCCCCCCCCCCCCC" := by
      match hash, hh with
      | [p0, p1, p2, p3, p4, p5, p6, p7, p8, p9, p10, p11, p12, p13, p14, p15, p16, p17, p18, p19], _ => rfl
    rw [FieldAt, e] at h
    revert h
    decide +kernel

end RustBit
