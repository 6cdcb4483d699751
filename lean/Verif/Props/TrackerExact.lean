/-
Properties C57, C60: exactly which texts are socket addresses; the transaction number.
-/
import Verif.Props.Tracker

namespace RustBit
open Spec

theorem takeWhile_split (p : UInt8 → Bool) (s : Bytes) : ∀ d ∈ s.takeWhile p, p d = true := by
  have := List.all_takeWhile (p := p) (l := s)
  exact fun d hd => List.all_eq_true.mp this d hd

theorem dropWhile_head (p : UInt8 → Bool) (s : Bytes) : ∀ b t, s.dropWhile p = b :: t → p b = false := by
  induction s with
  | nil => simp
  | cons c s ih =>
    intro b t h
    rw [List.dropWhile_cons] at h
    split at h
    · exact ih b t h
    · rename_i hc
      cases h
      simpa using hc

theorem connectLoop_cid (net : UdpNet) (msg : Bytes) (n : Nat) : ∀ (s : UdpState) (buf : Bytes), buf.length = 16 →
    ∀ cid, (connectLoop net msg n s buf).1 = .ok cid → cid.length = 8 := by
  induction n with
  | zero => intro s buf _ cid h; cases h
  | succ n ih =>
    intro s buf hb cid h
    simp only [connectLoop, sendUdp, readUdp] at h
    cases hr : net.recv s.recvs with
    | never => rw [hr] at h; cases h
    | failed => rw [hr] at h; exact ih _ _ hb cid h
    | datagram b =>
      rw [hr] at h
      simp only [sliceFrom, List.length_append, List.length_take, List.length_drop, hb] at h
      rw [if_pos (by omega)] at h
      cases h
      simp [hb]
      omega

/-- What is read as a number. -/
theorem readNumber_sound {limit : Nat} {k : Option Nat} {z : Bool} {s r : Bytes} {n : Nat} (h : readNumber limit k z s = some (n, r)) :
    ∃ ds, s = ds ++ r ∧ ds ≠ [] ∧ (∀ d ∈ ds, isDigit d = true) ∧ value ds = n ∧ n < limit ∧ (z = false → IsDecimal n ds) := by
  unfold readNumber at h
  simp only [] at h
  split at h
  · cases h
  · rename_i h0
    split at h
    · cases h
    · split at h
      · cases h
      · rename_i h2
        split at h
        · cases h
        · rename_i h3
          simp only [Option.some.injEq, Prod.mk.injEq] at h
          obtain ⟨rfl, rfl⟩ := h
          have hv : value (s.takeWhile isDigit) = (s.takeWhile isDigit).foldl (fun acc b => acc * 10 + (b.toNat - 48)) 0 := (value_foldl' _ 0).symm
          have hd := takeWhile_split isDigit s
          refine ⟨s.takeWhile isDigit, (List.takeWhile_append_dropWhile).symm, h0, hd, hv, by omega, ?_⟩
          intro hz
          subst hz
          refine ⟨h0, fun d hm => (isDigit_iff d).mp (hd d hm), hv, ?_⟩
          intro hh
          simp only [Bool.not_false, Bool.true_and, Bool.and_eq_true, beq_iff_eq, decide_eq_true_eq, not_and] at h3
          have := h3 hh
          cases ht : s.takeWhile isDigit with
          | nil => exact absurd ht h0
          | cons x t =>
            rw [ht] at hh this
            simp only [List.head?_cons, Option.some.injEq] at hh
            simp only [List.length_cons] at this
            rw [hh, List.length_eq_zero_iff.mp (by omega : t.length = 0)]

theorem isDecimal_short {n : Nat} {ds : Bytes} (h : IsDecimal n ds) (hn : n < 1000) : ds.length ≤ 3 := by
  rw [isDecimal_unique h (isDecimal_decimal n)]
  exact decimal_len n hn

/-- C57, exactly: the texts that are taken for socket addresses are those of four numbers below 256 without leading zeros, separated by dots, a colon, and
a port below 65536 (here leading zeros are allowed). -/
theorem C57_address_exact (s : Bytes) (v : List Nat × Nat) :
    parseSocketV4 s = some v ↔ ∃ (x : Addr) (ip ds : Bytes), x.IsDotted ip ∧ ds ≠ [] ∧ (∀ d ∈ ds, 48 ≤ d.toNat ∧ d.toNat ≤ 57) ∧
      value ds = x.port ∧ x.port < 65536 ∧ s = ip ++ 58 :: ds ∧ v = x.numbers := by
  constructor
  · intro h
    unfold parseSocketV4 at h
    obtain ⟨⟨a, s1⟩, ha, h⟩ := Option.bind_eq_some_iff.mp h
    obtain ⟨s1', ha', h⟩ := Option.bind_eq_some_iff.mp h
    obtain ⟨⟨b, s2⟩, hb, h⟩ := Option.bind_eq_some_iff.mp h
    obtain ⟨s2', hb', h⟩ := Option.bind_eq_some_iff.mp h
    obtain ⟨⟨c, s3⟩, hc, h⟩ := Option.bind_eq_some_iff.mp h
    obtain ⟨s3', hc', h⟩ := Option.bind_eq_some_iff.mp h
    obtain ⟨⟨d, s4⟩, hd, h⟩ := Option.bind_eq_some_iff.mp h
    obtain ⟨s4', hd', h⟩ := Option.bind_eq_some_iff.mp h
    obtain ⟨⟨p, s5⟩, hp, h⟩ := Option.bind_eq_some_iff.mp h
    simp only [] at ha' hb hb' hc hc' hd hd' hp h
    split at h
    · rename_i h5
      simp only [Option.some.injEq] at h
      have rc : ∀ {c : UInt8} {s t : Bytes}, readChar c s = some t → s = c :: t := by
        intro c s t h
        cases s with
        | nil => cases h
        | cons x u =>
          simp only [readChar] at h
          split at h
          · rename_i hx; cases h; rw [hx]
          · cases h
      obtain ⟨da, ea, -, -, -, la, ia⟩ := readNumber_sound ha
      obtain ⟨db, eb, -, -, -, lb, ib⟩ := readNumber_sound hb
      obtain ⟨dc, ec, -, -, -, lc, ic⟩ := readNumber_sound hc
      obtain ⟨dd, ed, -, -, -, ld, id'⟩ := readNumber_sound hd
      obtain ⟨dp, ep, n1, n2, n3, lp, -⟩ := readNumber_sound hp
      have t : ∀ {n : Nat}, n < 256 → (UInt8.ofNat n).toNat = n := fun h => by rw [UInt8.toNat_ofNat', Nat.mod_eq_of_lt h]
      refine ⟨⟨UInt8.ofNat a, UInt8.ofNat b, UInt8.ofNat c, UInt8.ofNat d, p⟩, da ++ [46] ++ db ++ [46] ++ dc ++ [46] ++ dd, dp,
        ⟨da, db, dc, dd, ?_, ?_, ?_, ?_, rfl⟩, n1, fun x hx => (isDigit_iff x).mp (n2 x hx), n3, lp, ?_, ?_⟩
      · simp only [t la]; exact ia rfl
      · simp only [t lb]; exact ib rfl
      · simp only [t lc]; exact ic rfl
      · simp only [t ld]; exact id' rfl
      · rw [ea, rc ha', eb, rc hb', ec, rc hc', ed, rc hd', ep, h5]
        simp
      · rw [← h]
        simp only [Addr.numbers, t la, t lb, t lc, t ld]
    · cases h
  · rintro ⟨x, ip, ds, ⟨w1, w2, w3, w4, h1, h2, h3, h4, rfl⟩, n1, n2, n3, n4, rfl, rfl⟩
    rw [isDecimal_unique h1 (isDecimal_decimal _), isDecimal_unique h2 (isDecimal_decimal _), isDecimal_unique h3 (isDecimal_decimal _),
      isDecimal_unique h4 (isDecimal_decimal _)]
    have ha := UInt8.toNat_lt x.a
    have hb := UInt8.toNat_lt x.b
    have hc := UInt8.toNat_lt x.c
    have hd := UInt8.toNat_lt x.d
    have e : decimal x.a.toNat ++ [46] ++ decimal x.b.toNat ++ [46] ++ decimal x.c.toNat ++ [46] ++ decimal x.d.toNat ++ 58 :: ds =
        decimal x.a.toNat ++ c!"." :: (decimal x.b.toNat ++ c!"." :: (decimal x.c.toNat ++ c!"." :: (decimal x.d.toNat ++ c!":" :: ds))) := by
      simp
    have r1 := @readNumber_decimal 256 (some 3) false x.a.toNat c!"." (decimal x.b.toNat ++ c!"." :: (decimal x.c.toNat ++
        c!"." :: (decimal x.d.toNat ++ c!":" :: ds))) (by omega) (Or.inr ⟨rfl, by omega⟩) (by decide)
    have r2 := @readNumber_decimal 256 (some 3) false x.b.toNat c!"." (decimal x.c.toNat ++
        c!"." :: (decimal x.d.toNat ++ c!":" :: ds)) (by omega) (Or.inr ⟨rfl, by omega⟩) (by decide)
    have r3 := @readNumber_decimal 256 (some 3) false x.c.toNat c!"." (decimal x.d.toNat ++ c!":" :: ds)
      (by omega) (Or.inr ⟨rfl, by omega⟩) (by decide)
    have r4 := @readNumber_decimal 256 (some 3) false x.d.toNat c!":" ds (by omega) (Or.inr ⟨rfl, by omega⟩) (by decide)
    have r5 : readNumber 65536 none true ds = some (x.port, []) := by
      obtain ⟨e1, e2⟩ := takeWhile_digits_end ds (fun d hd => (isDigit_iff d).mpr (n2 d hd))
      unfold readNumber
      have e3 : ds.foldl (fun acc b => acc * 10 + (b.toNat - 48)) 0 = x.port := (value_foldl' ds 0).trans n3
      simp only [e1, e2, e3]
      rw [if_neg n1, if_neg (by simp), if_neg (by omega), if_neg (by simp)]
    unfold parseSocketV4
    simp only [e, r1, r2, r3, r4, r5, readChar, if_true, Option.bind_eq_bind, Option.bind_some, Addr.numbers]

/-- Non-vacuity: the largest address, and a port with leading zeros. -/
example : parseSocketV4 b!"255.255.255.255:65535" = some ([255, 255, 255, 255], 65535) ∧ parseSocketV4 b!"0.10.200.9:00080" = some ([0, 10, 200, 9], 80) := by
  decide +kernel

/-- C60: the transaction number, with which answers could be told from forgeries, is a constant: whatever the network does, every message sent carries
the same, so nobody needs to see a request to know it. -/
theorem C60_refuted_predictable (net : UdpNet) (infoHash peerId : Bytes) (url : TrackerUrl) :
    ∀ msg ∈ (udpCall net infoHash peerId url).2.sent, FieldAt msg 12 [0x00, 0x01, 0x19, 0x9E] := by
  have hx : ∀ msg ∈ (udpExchange net infoHash peerId ⟨[], 0⟩).2.sent, FieldAt msg 12 [0x00, 0x01, 0x19, 0x9E] := by
    obtain ⟨k, -, hs, -, -, -, -, -⟩ := connectLoop_spec net (makeConnectionMessage transactionId) 4 ⟨[], 0⟩ (List.replicate 16 0) (by simp)
    have hlen := connectLoop_cid net (makeConnectionMessage transactionId) 4 ⟨[], 0⟩ (List.replicate 16 0) (by simp)
    simp only [udpExchange, connectToTracker]
    generalize connectLoop net (makeConnectionMessage transactionId) 4 ⟨[], 0⟩ (List.replicate 16 0) = x at hs hlen
    obtain ⟨r, s⟩ := x
    simp only [List.nil_append] at hs
    have h1 : ∀ msg ∈ s.sent, FieldAt msg 12 [0x00, 0x01, 0x19, 0x9E] := by
      intro msg hm
      rw [hs] at hm
      rw [(List.mem_replicate.mp hm).2]
      rfl
    cases r with
    | ok cid =>
      have hc := hlen cid rfl
      have h2 : FieldAt (makeAnnounceMessage transactionId cid peerId infoHash) 12 [0x00, 0x01, 0x19, 0x9E] := by
        match cid, hc with
        | [c0, c1, c2, c3, c4, c5, c6, c7], _ => rfl
      have h3 : ∀ msg ∈ s.sent ++ [makeAnnounceMessage transactionId cid peerId infoHash], FieldAt msg 12 [0x00, 0x01, 0x19, 0x9E] := by
        intro msg hm
        rcases List.mem_append.mp hm with hm | hm
        · exact h1 msg hm
        · rw [List.mem_singleton.mp hm]; exact h2
      simp only [sendUdp]
      cases net.send s.sent.length with
      | false => exact h3
      | true =>
        simp only [if_true, readAnnounce, readUdp]
        cases net.recv s.recvs with
        | never => exact h3
        | failed => exact h3
        | datagram b =>
          simp only []
          split <;> exact h3
    | err e => exact h1
    | panic => exact h1
    | hang => exact h1
  unfold udpCall
  simp only []
  split
  · simp
  · split
    · simp
    · simp
    · split
      · exact hx
      · simp

/-- Non-vacuity: two messages are sent. -/
example : (udpCall (answers (List.replicate 16 0) (List.replicate 32 0)) [] [] ⟨b!"udp", some b!"h", some 1, []⟩).2.sent.length = 2 := by decide +kernel

end RustBit
