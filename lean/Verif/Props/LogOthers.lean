/-
C105: what the log tells about lookups, the metadata cache and the writing of pieces.
-/
import Verif.Spec.LogOthers
import Verif.Props.LogRecords
import Verif.Props.FromMagnet
import Verif.Props.Disk

namespace RustBit
open Spec

/-! ### Records of attempts -/

/-- The records of an attempt with a peer are none of those of lookups, the cache and the writer. -/
def OfPeer : LogRec → Prop
  | .peersFound .. | .udpSendFailed _ | .cacheFound _ | .cacheUnreadable .. | .cacheUnsaved .. | .pieceWritten _ => False
  | _ => True

theorem decodeLog_ofPeer (env : LogEnv) (c : Bytes) : ∀ r ∈ decodeLog env c, OfPeer r := by
  intro r hr
  rcases decodeLog_quiet env c r hr with ⟨n, rfl⟩ | ⟨n, rfl⟩ <;> exact True.intro

theorem readLog_ofPeer (env : LogEnv) (net : Net) (p : Peer) {no : List LogRec} (hno : ∀ r ∈ no, OfPeer r) : ∀ r ∈ p.readLog env net no, OfPeer r := by
  intro r hr
  unfold Peer.readLog at hr
  split at hr
  · exact hno r hr
  · rcases List.mem_append.mp hr with hr | hr
    · rcases newRawLog_quiet env _ _ r hr with ⟨n, rfl⟩ | ⟨n, rfl⟩ | ⟨n, rfl⟩ | ⟨n, rfl⟩ | ⟨n, rfl⟩ <;> exact True.intro
    · split at hr
      · unfold Peer.applyLog Peer.contentLog at hr
        split at hr
        · rw [List.mem_singleton.mp hr]; exact True.intro
        · split at hr
          · rcases List.mem_cons.mp hr with rfl | hr
            · exact True.intro
            · split at hr
              · cases hr
              · cases hr
              · cases hr
              · rw [List.mem_singleton.mp hr]; exact True.intro
          · cases hr
      · exact hno r hr
      · cases hr

theorem writeLog_ofPeer (env : LogEnv) (net : Net) (p : Peer) (b : Bytes) : ∀ r ∈ p.writeLog env net b, OfPeer r := by
  intro r hr
  unfold Peer.writeLog at hr
  split at hr
  · cases hr
  · rw [List.mem_singleton.mp hr]; exact True.intro

theorem noMessage_ofPeer (b : Bool) : ∀ r ∈ [LogRec.noMessage b], OfPeer r := by
  intro r hr
  rw [List.mem_singleton.mp hr]; exact True.intro

theorem readyLoopLog_ofPeer (env : LogEnv) (net : Net) : ∀ (k : Nat) (p : Peer), ∀ r ∈ readyLoopLog env net k p, OfPeer r
  | 0, _, r, hr => by cases hr
  | k + 1, p, r, hr => by
    rw [readyLoopLog] at hr
    rcases List.mem_append.mp hr with hr | hr
    · exact readLog_ofPeer env net p (noMessage_ofPeer false) r hr
    · split at hr
      · split at hr
        · cases hr
        · exact readyLoopLog_ofPeer env net k _ r hr
      · cases hr

theorem initPeerLog_ofPeer (env : LogEnv) (net : Net) (p : Peer) : ∀ r ∈ initPeerLog env net p, OfPeer r := by
  intro r hr
  unfold initPeerLog at hr
  rcases List.mem_append.mp hr with hr | hr
  · exact writeLog_ofPeer env net _ _ r hr
  · simp only [] at hr
    rcases List.mem_append.mp hr with hr | hr
    · exact readLog_ofPeer env net _ (noMessage_ofPeer true) r hr
    · split at hr
      · split at hr
        · cases hr
        · rcases List.mem_append.mp hr with hr | hr
          · exact writeLog_ofPeer env net _ _ r hr
          · split at hr
            · cases hr
            · exact readyLoopLog_ofPeer env net 10 _ r hr
      · cases hr

theorem execRunLog_ofPeer (env : LogEnv) (m : Build) (net : Net) (d : Downloadable) : ∀ (f : Nat) (s : DState), ∀ r ∈ execRunLog env m net d f s, OfPeer r
  | 0, _, r, hr => by cases hr
  | f + 1, s, r, hr => by
    have tail : ∀ s : DState, ∀ r ∈ execTailLog env m net d s, OfPeer r := by
      intro s r hr
      unfold execTailLog MessageBuffer.requestLog at hr
      split at hr
      · cases hr
      split at hr
      · cases hr
      split at hr
      · cases hr
      split at hr
      · exact writeLog_ofPeer env net _ _ r hr
      · cases hr
    rw [execRunLog] at hr
    rcases List.mem_append.mp hr with hr | hr
    · unfold execStepLog at hr
      rcases List.mem_append.mp hr with hr | hr
      · exact readLog_ofPeer env net _ (fun r h => by cases h) r hr
      · split at hr
        · exact tail _ r hr
        · exact tail _ r hr
        · cases hr
    · split at hr
      · exact execRunLog_ofPeer env m net d f _ r hr
      · cases hr

theorem getInfoDialLog_ofPeer (env : LogEnv) (m : Build) (dial : Dial) (f : Nat) (peerId hash : Bytes) :
    ∀ r ∈ getInfoDialLog env m dial f peerId hash, OfPeer r := by
  intro r hr
  unfold getInfoDialLog getInfoLog downloadLoopLog at hr
  split at hr
  · rcases List.mem_append.mp hr with hr | hr
    · exact initPeerLog_ofPeer env _ _ r hr
    · split at hr
      · split at hr
        · rcases List.mem_append.mp hr with hr | hr
          · exact execRunLog_ofPeer env m _ _ f _ r hr
          · split at hr
            · exact decodeLog_ofPeer env _ r hr
            · cases hr
        · cases hr
      · cases hr
  · cases hr

theorem ofPeer_nil {log : List LogRec} (h : ∀ r ∈ log, OfPeer r) :
    lookedUp log = [] ∧ triesFailed log = [] ∧ cacheSeen log = [] ∧ cacheNotRead log = [] ∧ cacheNotSaved log = [] := by
  unfold lookedUp triesFailed cacheSeen cacheNotRead cacheNotSaved
  simp only [List.filterMap_eq_nil_iff]
  refine ⟨?_, ?_, ?_, ?_, ?_⟩ <;>
  · intro r hr
    have := h r hr
    cases r <;> first | rfl | exact absurd this id

/-! ### Lookups -/

theorem connectLoopLog_eq (net : UdpNet) (msg : Bytes) (hm : msg.length = 16) : ∀ (n k : Nat) (buf : Bytes) (s : UdpState), n + k = 4 → s.sent.length = k →
    requestsSent s.sent = k →
    ∃ j, requestsSent (connectLoop net msg n s buf).2.sent = k + j ∧ (connectLoop net msg n s buf).2.sent = s.sent ++ List.replicate j msg ∧
      connectLoopLog net msg n s buf = (((List.range' k j).filter fun i => !net.send i).map (· + 1)).map .udpSendFailed
  | 0, k, buf, s, _, _, hr => ⟨0, by simp [connectLoop, hr], by simp [connectLoop], rfl⟩
  | n + 1, k, buf, s, hnk, hl, hr => by
    have hr1 : requestsSent (s.sent ++ [msg]) = k + 1 := by
      unfold requestsSent at hr ⊢
      rw [List.filter_append, List.length_append, hr]
      simp [hm]
    have hk : 4 - n = k + 1 := by omega
    rw [connectLoop, connectLoopLog]
    simp only [sendUdp, readUdp, hl]
    cases hrv : net.recv s.recvs with
    | datagram b => cases hsd : net.send k <;> exact ⟨1, hr1, by simp, by simp [List.range'_succ, hsd, hk]⟩
    | never => cases hsd : net.send k <;> exact ⟨1, hr1, by simp, by simp [List.range'_succ, hsd, hk]⟩
    | failed =>
      obtain ⟨j, h1, h2, h3⟩ := connectLoopLog_eq net msg hm n (k + 1) buf ⟨s.sent ++ [msg], s.recvs + 1⟩ (by omega) (by simp [hl]) hr1
      refine ⟨j + 1, by simp only []; rw [h1]; omega, by simp only []; rw [h2]; simp [List.replicate_succ], ?_⟩
      simp only []
      rw [h3, List.range'_succ]
      cases hsd : net.send k <;> simp [hsd, hk]

theorem notSent_zero (send : Nat → Bool) : notSent send 0 = [] := rfl

theorem announce_long (tid cid peerId hash : Bytes) (h : tid.length = 4) : (makeAnnounceMessage tid cid peerId hash).length ≠ 16 := by
  simp only [makeAnnounceMessage, List.flatten_cons, List.flatten_nil, List.length_append, List.length_cons, List.length_nil, beU32_length, h]
  omega

/-- C105: what a lookup at a UDP tracker leaves in the log, whatever the tracker and the network do: the tries of the connection request that could not be sent, by
their numbers, and at the end, if it succeeds, how many peers were named; nothing else. -/
theorem C105_udp (env : LogEnv) (udp : UdpNet) (http : Bytes → HttpGet) (peerId : Bytes) (url : TrackerUrl) (view : UrlView) (hash : Bytes)
    (hs : url.scheme = b!"udp") :
    lookupLog env udp http peerId url view hash =
      (notSent udp.send (requestsSent (getPeersByTracker udp http peerId url hash).2.sent)).map .udpSendFailed ++
        match (getPeersByTracker udp http peerId url hash).1 with
        | .ok peers => [.peersFound peers.length view]
        | _ => [] := by
  have hne : b!"udp" ≠ b!"http" := by decide
  have key : udpCallLog udp url = (notSent udp.send (requestsSent (getPeersByTracker udp http peerId url hash).2.sent)).map .udpSendFailed := by
    unfold getPeersByTracker udpCallLog udpCall
    rw [hs, if_neg hne, if_pos rfl]
    by_cases hb : udp.bind = true
    · simp only [hb, Bool.not_true, Bool.false_eq_true, if_false]
      cases url.hostStr with
      | none => rfl
      | some h =>
        cases url.port with
        | none => rfl
        | some p =>
          simp only []
          by_cases hc : udp.connect (h ++ c!":" :: decimal p) = true
          · rw [if_pos hc, if_pos hc]
            obtain ⟨j, h1, -, h3⟩ := connectLoopLog_eq udp (makeConnectionMessage transactionId) (by decide) 4 0 (List.replicate 16 0) ⟨[], 0⟩ rfl rfl rfl
            rw [h3]
            have : requestsSent (udpExchange udp hash peerId ⟨[], 0⟩).2.sent = j := by
              unfold udpExchange connectToTracker
              rw [Nat.zero_add] at h1
              generalize connectLoop udp (makeConnectionMessage transactionId) 4 ⟨[], 0⟩ (List.replicate 16 0) = r at h1
              obtain ⟨r, s⟩ := r
              cases r with
              | ok cid =>
                simp only [sendUdp]
                have h2 : requestsSent (s.sent ++ [makeAnnounceMessage transactionId cid peerId hash]) = j := by
                  unfold requestsSent at h1 ⊢
                  rw [List.filter_append, List.filter_cons_of_neg (by simpa using announce_long _ _ _ _ (by decide))]
                  simpa using h1
                cases udp.send s.sent.length with
                | false => exact h2
                | true =>
                  simp only [if_true, readAnnounce, readUdp]
                  cases udp.recv s.recvs with
                  | datagram b => simp only []; split <;> exact h2
                  | failed => exact h2
                  | never => exact h2
              | err e => exact h1
              | panic => exact h1
              | hang => exact h1
            rw [this, notSent, List.range_eq_range']
          · rw [if_neg hc, if_neg hc]
            rfl
    · simp only [Bool.not_eq_true] at hb
      simp only [hb, Bool.not_false, if_true]
      rfl
  unfold lookupLog
  rw [key]
  simp only [hs, if_neg hne, if_true]
  congr 1
  generalize getPeersByTracker udp http peerId url hash = x
  obtain ⟨r, s⟩ := x
  cases r <;> rfl

/-- C105: what a lookup at an HTTP tracker leaves in the log: how many peers were named if it succeeds; a line for a number in the answer that is no text, or that is
no number, if it fails for that; nothing if it fails for anything else. -/
theorem C105_http (env : LogEnv) (udp : UdpNet) (http : Bytes → HttpGet) (peerId : Bytes) (url : TrackerUrl) (view : UrlView) (hash : Bytes)
    (hs : url.scheme = b!"http") :
    match (getPeersByTracker udp http peerId url hash).1 with
    | .ok peers => lookupLog env udp http peerId url view hash = [.peersFound peers.length view]
    | .err (.tcpTracker (.decoder (.badNumberFromString pos))) => lookupLog env udp http peerId url view hash = [.notText pos]
    | .err (.tcpTracker (.decoder (.badNumberDecode _))) => ∃ pos, lookupLog env udp http peerId url view hash = [.notNumber pos]
    | _ => lookupLog env udp http peerId url view hash = [] := by
  unfold lookupLog getPeersByTracker tcpCallLog tcpCall
  simp only [hs, if_true]
  cases http (announceUrl url hash peerId) with
  | failed => rfl
  | broken => rfl
  | body b =>
    simp only [decodeLog]
    cases Decoder.decode b with
    | ok x =>
      obtain ⟨v, n⟩ := x
      simp only [Res.mapErr, Res.bind_ok, List.nil_append]
      cases v.getBytesFromDict b!"peers" <;> rfl
    | err e => cases e <;> first | rfl | exact ⟨_, rfl⟩
    | panic => rfl
    | hang => rfl

theorem lookedUp_append (a b : List LogRec) : lookedUp (a ++ b) = lookedUp a ++ lookedUp b := List.filterMap_append

theorem lookedUp_failed (l : List Nat) : lookedUp (l.map .udpSendFailed) = [] := by
  induction l with
  | nil => rfl
  | cons a l ih => rw [List.map_cons]; exact ih

/-- C105: whatever the tracker is, the log says how many peers it named exactly if the lookup succeeds. -/
theorem C105_found (env : LogEnv) (udp : UdpNet) (http : Bytes → HttpGet) (peerId : Bytes) (url : TrackerUrl) (view : UrlView) (hash : Bytes) :
    lookedUp (lookupLog env udp http peerId url view hash) =
      match (getPeersByTracker udp http peerId url hash).1 with
      | .ok peers => [(peers.length, view)]
      | _ => [] := by
  by_cases hu : url.scheme = b!"udp"
  · rw [C105_udp env udp http peerId url view hash hu, lookedUp_append, lookedUp_failed, List.nil_append]
    cases (getPeersByTracker udp http peerId url hash).1 <;> rfl
  · by_cases hh : url.scheme = b!"http"
    · have := C105_http env udp http peerId url view hash hh
      split at this
      · rw [this]; rename_i h; rw [h]; rfl
      · rw [this]; rename_i h; rw [h]; rfl
      · obtain ⟨pos, this⟩ := this
        rw [this]; rename_i h; rw [h]; rfl
      · rw [this]
        rename_i h _ _
        split
        · rename_i peers hp
          exact absurd hp (h peers)
        · rfl
    · unfold lookupLog getPeersByTracker
      rw [if_neg hh, if_neg hu, if_neg hh, if_neg hu]
      rfl

/-- A failed lookup need not leave anything in the log: no tracker of another protocol, no HTTP tracker that cannot be reached, and no UDP tracker that does not
answer leaves a trace, so that the log does not tell a tracker that was not asked from one that failed. -/
theorem C105_refuted_lookup (env : LogEnv) (udp : UdpNet) (http : Bytes → HttpGet) (peerId : Bytes) (url : TrackerUrl) (view : UrlView) (hash : Bytes) :
    (url.scheme ≠ b!"http" → url.scheme ≠ b!"udp" → lookupLog env udp http peerId url view hash = []) ∧
    (url.scheme = b!"http" → http (announceUrl url hash peerId) = .failed → lookupLog env udp http peerId url view hash = []) ∧
    (url.scheme = b!"udp" → (∀ k, udp.send k = true) → (∀ k, udp.recv k = .failed) → lookupLog env udp http peerId url view hash = []) := by
  refine ⟨fun h1 h2 => ?_, fun h1 h2 => ?_, fun h1 h2 h3 => ?_⟩
  · unfold lookupLog getPeersByTracker
    rw [if_neg h1, if_neg h2, if_neg h1, if_neg h2]
    rfl
  · unfold lookupLog getPeersByTracker tcpCallLog tcpCall
    simp only [h1, if_true, h2]
    rfl
  · rw [C105_udp env udp http peerId url view hash h1]
    have : notSent udp.send (requestsSent (getPeersByTracker udp http peerId url hash).2.sent) = [] := by
      unfold notSent
      rw [List.map_eq_nil_iff, List.filter_eq_nil_iff]
      intro a _
      simp [h2]
    rw [this]
    have hno : ∀ peers, (getPeersByTracker udp http peerId url hash).1 ≠ .ok peers := by
      intro peers
      unfold getPeersByTracker udpCall
      rw [h1, if_neg (by decide), if_pos rfl]
      cases udp.bind with
      | false => intro h; cases h
      | true =>
        cases url.hostStr with
        | none => intro h; cases h
        | some h =>
          cases url.port with
          | none => intro h; cases h
          | some p =>
            simp only [Bool.not_true, Bool.false_eq_true, if_false]
            by_cases hc : udp.connect (h ++ c!":" :: decimal p) = true
            · rw [if_pos hc]
              have := (C61_gives_up udp transactionId ⟨[], 0⟩ (fun i _ => h3 _)).1
              unfold udpExchange
              generalize connectToTracker udp transactionId ⟨[], 0⟩ = r at this
              obtain ⟨r, s⟩ := r
              cases this
              intro h; cases h
            · rw [if_neg hc]
              intro h; cases h
    cases h : (getPeersByTracker udp http peerId url hash).1 with
    | ok peers => exact absurd h (hno peers)
    | _ => rfl

/-- A tracker that is reached at the third try and names two peers. -/
def thirdTry : UdpNet :=
  ⟨true, fun _ => true, fun k => decide (2 ≤ k), fun k => if k < 2 then .failed else if k = 2 then .datagram (List.replicate 16 0) else
    .datagram (List.replicate 20 0 ++ [1, 2, 3, 4, 0, 80, 5, 6, 7, 8, 0, 81])⟩

/-- Non-vacuity: what a lookup there leaves in the log. -/
example (env : LogEnv) (view : UrlView) :
    lookupLog env thirdTry (fun _ => .failed) b!"me" ⟨b!"udp", some b!"tracker", some 80, b!"udp://tracker:80"⟩ view (List.replicate 20 7) =
    [.udpSendFailed 1, .udpSendFailed 2, .peersFound 2 view] := by
  have h1 : (getPeersByTracker thirdTry (fun _ => .failed) b!"me" ⟨b!"udp", some b!"tracker", some 80, b!"udp://tracker:80"⟩ (List.replicate 20 7)).1 =
      .ok [⟨b!"1.2.3.4", 80⟩, ⟨b!"5.6.7.8", 81⟩] := by decide +kernel
  have h2 : notSent thirdTry.send (requestsSent
      (getPeersByTracker thirdTry (fun _ => .failed) b!"me" ⟨b!"udp", some b!"tracker", some 80, b!"udp://tracker:80"⟩ (List.replicate 20 7)).2.sent) = [1, 2] := by
    decide +kernel
  rw [C105_udp env thirdTry _ b!"me" _ view _ rfl]
  rw [h1, h2]
  rfl

/-! ### The cache -/

theorem createDirAll_blocked {fs : FS} {cwd : Loc} {c : Bytes} (h : fs (cwd ++ [b!"downloads"]) = some (.file c)) :
    fs.createDirAll cwd [b!"downloads"] = (.err .other, fs) := by
  have hn : hasNul [b!"downloads"] = false := by decide
  have hm : fs.mkdir cwd [b!"downloads"] = .err .other := by
    unfold FS.mkdir
    rw [hn]
    simp only [Bool.false_eq_true, if_false, List.getLast?_singleton, List.dropLast_singleton, FS.walk, Res.bind_ok]
    rw [if_neg (by decide), h]
  have hi : fs.isDir cwd [b!"downloads"] = false := by
    unfold FS.isDir
    rw [hn, FS.walk, if_neg (by decide), h]
    rfl
  unfold FS.createDirAll
  rw [List.reverse_singleton, FS.createDirAllRev, List.reverse_singleton, hm]
  simp only []
  rw [hi]
  rfl

theorem cache_nul {infoHash : Bytes} : hasNul [b!"downloads", percentEncode infoHash] = false := by
  have : (0 : UInt8) ∉ percentEncode infoHash := (C62_safe infoHash).2.2.1
  simp [hasNul, this]

theorem canOpen_cache {fs : FS} {cwd : Loc} {infoHash : Bytes} (h : 2 < infoHash.length) (hd : fs (cwd ++ [b!"downloads"]) = some .dir) :
    fs.canOpen cwd (cachePath infoHash) = (fs (cacheLoc cwd infoHash)).isSome := by
  have hsafe := C62_safe infoHash
  obtain ⟨n1, n2, n3⟩ := hsafe.2.2.2 h
  have hp := cachePath_parse (hsafe.2.1 _ (by decide)) n1 n2
  have e : cwd ++ [b!"downloads"] ++ [percentEncode infoHash] = cacheLoc cwd infoHash := by simp [cacheLoc]
  unfold FS.canOpen
  simp only [hp, cache_nul, Bool.false_eq_true, if_false, List.getLast?_cons_cons, List.getLast?_singleton, List.dropLast_cons_cons,
    List.dropLast_singleton, FS.walk, PathBuf.base]
  rw [if_neg (by decide), hd]
  simp only [if_neg n3, e]
  cases fs (cacheLoc cwd infoHash) with
  | none => rfl
  | some n => cases n <;> rfl

theorem save_cache {fs : FS} {cwd : Loc} {infoHash : Bytes} (h : 2 < infoHash.length) (hd : fs (cwd ++ [b!"downloads"]) = some .dir) (i : Info) (room : Nat) :
    (fs (cacheLoc cwd infoHash) = some .dir → i.save cwd fs (cachePath infoHash) room = (.panic, fs)) ∧
    (fs (cacheLoc cwd infoHash) ≠ some .dir → ∃ fs', readFile fs' (cacheLoc cwd infoHash) = some (i.json.take room) ∧
      i.save cwd fs (cachePath infoHash) room = (if room < i.json.length then .err (.noInfoFile (cachePath infoHash)) else .ok (), fs')) := by
  have hsafe := C62_safe infoHash
  obtain ⟨n1, n2, n3⟩ := hsafe.2.2.2 h
  have hp := cachePath_parse (hsafe.2.1 _ (by decide)) n1 n2
  have e : cwd ++ [b!"downloads"] ++ [percentEncode infoHash] = cacheLoc cwd infoHash := by simp [cacheLoc]
  have ho : fs.openCreate cwd (PathBuf.parse (cachePath infoHash)) = match fs (cacheLoc cwd infoHash) with
      | some .dir => .err .other
      | some (.file _) => .ok (cacheLoc cwd infoHash, fs)
      | none => .ok (cacheLoc cwd infoHash, fs.set (cacheLoc cwd infoHash) (.file [])) := by
    rw [hp]
    unfold FS.openCreate
    simp only [cache_nul, Bool.or_false, Bool.false_eq_true, if_false, List.getLast?_cons_cons, List.getLast?_singleton,
      List.dropLast_cons_cons, List.dropLast_singleton, PathBuf.base, FS.walk]
    rw [if_neg (by decide), hd]
    simp only [Res.bind_ok]
    rw [if_neg n3, e]
    rfl
  unfold Info.save
  rw [ho]
  constructor
  · intro h1
    rw [h1]
  · intro h1
    cases hn : fs (cacheLoc cwd infoHash) with
    | none => exact ⟨_, by simp [readFile, FS.set], rfl⟩
    | some n =>
      cases n with
      | dir => exact absurd hn h1
      | file c => exact ⟨_, by simp [readFile, FS.set], rfl⟩

/-- What the log should say about the cache: the file was found if anything is there; it could not be read if that is no text; and it could not be saved if the
metadata, which were not read from it, are not what it contains in the end. -/
structure CacheTold (log : List LogRec) (path : Bytes) (before : Option Node) (result : Res InfoError (Option Info)) (after : Option Bytes) : Prop where
  seen : cacheSeen log = if before.isSome then [path] else []
  unread : (cacheNotRead log = [path] ∧ before ≠ none ∧ ¬ ∃ c, before = some (.file c) ∧ Text c) ∨
    (cacheNotRead log = [] ∧ (before = none ∨ ∃ c, before = some (.file c) ∧ Text c))
  unsaved : (cacheNotSaved log = [path] ∧ ∃ i, result = .ok (some i) ∧ after ≠ some i.json) ∨
    (cacheNotSaved log = [] ∧ ∀ i, result = .ok (some i) → after = some i.json ∨ ∃ c, before = some (.file c) ∧ Text c)

theorem cacheTold_append (a b : List LogRec) : cacheSeen (a ++ b) = cacheSeen a ++ cacheSeen b ∧ cacheNotRead (a ++ b) = cacheNotRead a ++ cacheNotRead b ∧
    cacheNotSaved (a ++ b) = cacheNotSaved a ++ cacheNotSaved b := ⟨List.filterMap_append, List.filterMap_append, List.filterMap_append⟩

theorem cacheTold_fresh {env : LogEnv} {m : Build} {cwd : Loc} {fs : FS} {dial : Dial} {f : Nat} {peerId infoHash : Bytes} {room : Nat}
    (h : 2 < infoHash.length) (hd : fs (cwd ++ [b!"downloads"]) = some .dir) :
    CacheTold (fromFileLog env cwd fs (cachePath infoHash) ++
        match Info.fromFile cwd fs (cachePath infoHash) with
        | .err _ => getInfoDialLog env m dial f peerId infoHash ++
          match getInfo m dial f peerId infoHash with
          | .ok i => saveLog env i cwd fs (cachePath infoHash) room
          | _ => []
        | _ => []) (cachePath infoHash) (fs (cacheLoc cwd infoHash))
      (collectInfo m cwd fs dial f peerId infoHash room).1
      (readFile (collectInfo m cwd fs dial f peerId infoHash room : Res InfoError (Option Info) × FS).2 (cacheLoc cwd infoHash)) := by
  rw [collectInfo_exists hd]
  have hrd := readToString_cache h hd
  by_cases hc : ∃ c, fs (cacheLoc cwd infoHash) = some (.file c) ∧ Text c
  · obtain ⟨c, hc, ht⟩ := hc
    rw [readFile, hc] at hrd
    simp only [Option.bind_some, (text_iff c).mpr ht, if_true] at hrd
    have hl : fromFileLog env cwd fs (cachePath infoHash) = [.cacheFound (cachePath infoHash)] := by
      unfold fromFileLog
      rw [canOpen_cache h hd, hc, hrd]
      rfl
    have hff : (Info.fromFile cwd fs (cachePath infoHash) = .panic) ∨ ∃ i, Info.fromFile cwd fs (cachePath infoHash) = .ok i := by
      unfold Info.fromFile
      rw [hrd]
      simp only []
      split
      · exact .inr ⟨_, rfl⟩
      · exact .inl rfl
    rw [hl]
    rcases hff with hff | ⟨i, hff⟩ <;> rw [hff] <;>
    · simp only [List.append_nil]
      refine ⟨by rw [hc]; rfl, .inr ⟨rfl, .inr ⟨c, hc, ht⟩⟩, .inr ⟨rfl, fun i hi => .inr ⟨c, hc, ht⟩⟩⟩
  · have hnone : fs.readToString cwd (cachePath infoHash) = none := by
      rw [hrd]
      unfold readFile
      cases hn : fs (cacheLoc cwd infoHash) with
      | none => rfl
      | some n =>
        cases n with
        | dir => rfl
        | file c =>
          rw [Option.bind_some, if_neg]
          intro hv
          exact hc ⟨c, hn, (text_iff c).mp hv⟩
    have hff : Info.fromFile cwd fs (cachePath infoHash) = .err (.noInfoFile (cachePath infoHash)) := by
      unfold Info.fromFile
      rw [hnone]
    have hl : fromFileLog env cwd fs (cachePath infoHash) = if (fs (cacheLoc cwd infoHash)).isSome then
        [.cacheFound (cachePath infoHash), .cacheUnreadable (env.err 0) (cachePath infoHash)] else [] := by
      unfold fromFileLog
      rw [canOpen_cache h hd, hnone]
    rw [hl, hff]
    simp only []
    obtain ⟨-, -, q1, q2, q3⟩ := ofPeer_nil (getInfoDialLog_ofPeer env m dial f peerId infoHash)
    have hsv : ∀ i, cacheSeen (saveLog env i cwd fs (cachePath infoHash) room) = [] ∧ cacheNotRead (saveLog env i cwd fs (cachePath infoHash) room) = [] := by
      intro i
      unfold saveLog
      split <;> exact ⟨rfl, rfl⟩
    have hrest : cacheSeen (match getInfo m dial f peerId infoHash with
        | .ok i => saveLog env i cwd fs (cachePath infoHash) room
        | _ => []) = [] ∧ cacheNotRead (match getInfo m dial f peerId infoHash with
        | .ok i => saveLog env i cwd fs (cachePath infoHash) room
        | _ => []) = [] := by
      split
      · exact hsv _
      · exact ⟨rfl, rfl⟩
    refine ⟨?_, ?_, ?_⟩
    · rw [(cacheTold_append _ _).1, (cacheTold_append _ _).1, q1, hrest.1]
      cases (fs (cacheLoc cwd infoHash)).isSome <;> rfl
    · rw [(cacheTold_append _ _).2.1, (cacheTold_append _ _).2.1, q2, hrest.2]
      cases hb : fs (cacheLoc cwd infoHash) with
      | none => exact .inr ⟨rfl, .inl rfl⟩
      | some n => exact .inl ⟨rfl, by simp, by rw [← hb]; exact hc⟩
    · rw [(cacheTold_append _ _).2.2, (cacheTold_append _ _).2.2, q3]
      have h0 : cacheNotSaved (if (fs (cacheLoc cwd infoHash)).isSome then
        [.cacheFound (cachePath infoHash), .cacheUnreadable (env.err 0) (cachePath infoHash)] else []) = [] := by
        cases (fs (cacheLoc cwd infoHash)).isSome <;> rfl
      rw [h0, List.nil_append, List.nil_append]
      cases getInfo m dial f peerId infoHash with
      | ok i =>
        simp only []
        obtain ⟨s1, s2⟩ := save_cache h hd i room
        by_cases hdir : fs (cacheLoc cwd infoHash) = some .dir
        · unfold saveLog
          rw [s1 hdir]
          exact .inr ⟨rfl, fun j hj => by cases hj⟩
        · obtain ⟨fs', r1, r2⟩ := s2 hdir
          unfold saveLog
          rw [r2]
          by_cases hroom : room < i.json.length
          · simp only [if_pos hroom]
            refine .inl ⟨rfl, i, rfl, ?_⟩
            rw [r1]
            intro e
            have := congrArg List.length (Option.some.inj e)
            rw [List.length_take] at this
            omega
          · simp only [if_neg hroom]
            refine .inr ⟨rfl, fun j hj => ?_⟩
            cases hj
            left
            rw [r1, List.take_of_length_le (by omega)]
      | err e => exact .inr ⟨rfl, fun j hj => by cases hj⟩
      | panic => exact .inr ⟨rfl, fun j hj => by cases hj⟩
      | hang => exact .inr ⟨rfl, fun j hj => by cases hj⟩

/-- C105: what is logged while the metadata are looked for, whatever is on disk and whatever the peer does: that the cache file was found exactly if there is
anything in its place; that it could not be read exactly if that is no text; that the metadata could not be saved exactly if the torrent has them from the peer and
they are not what the file contains in the end. If the directory is in the way of a file nothing is logged. -/
theorem C105_cache (env : LogEnv) (m : Build) (cwd : Loc) (fs : FS) (dial : Dial) (f : Nat) (peerId infoHash : Bytes) (room : Nat) (h : 2 < infoHash.length) :
    ((∃ c, fs (cwd ++ [b!"downloads"]) = some (.file c)) ∧ collectInfoLog env m cwd fs dial f peerId infoHash room = []) ∨
    CacheTold (collectInfoLog env m cwd fs dial f peerId infoHash room) (cachePath infoHash) (fs (cacheLoc cwd infoHash))
      (collectInfo m cwd fs dial f peerId infoHash room).1
      (readFile (collectInfo m cwd fs dial f peerId infoHash room : Res InfoError (Option Info) × FS).2 (cacheLoc cwd infoHash)) := by
  have e : (PathBuf.mk false [b!"downloads"] false).base cwd = cwd := rfl
  by_cases hc : ∃ c, fs (cwd ++ [b!"downloads"]) = some (.file c)
  · left
    refine ⟨hc, ?_⟩
    obtain ⟨c, hc⟩ := hc
    unfold collectInfoLog
    simp only [downloads_comps, e, createDirAll_blocked hc]
  · right
    cases hd : fs (cwd ++ [b!"downloads"]) with
    | none =>
      have hd' : (fs.set (cwd ++ [b!"downloads"]) .dir) (cwd ++ [b!"downloads"]) = some .dir := by simp [FS.set]
      have hsame : collectInfo m cwd fs dial f peerId infoHash room =
          (collectInfo m cwd (fs.set (cwd ++ [b!"downloads"]) .dir) dial f peerId infoHash room : Res InfoError (Option Info) × FS) := by
        unfold collectInfo
        simp only [downloads_comps, e, createDirAll_absent hd, createDirAll_exists hd']
      have hn : fs (cacheLoc cwd infoHash) = (fs.set (cwd ++ [b!"downloads"]) .dir) (cacheLoc cwd infoHash) := by simp [FS.set, cacheLoc_ne]
      unfold collectInfoLog
      simp only [downloads_comps, e, createDirAll_absent hd]
      rw [hsame, hn]
      exact cacheTold_fresh h hd'
    | some n =>
      cases n with
      | file c => exact absurd ⟨c, hd⟩ hc
      | dir =>
        unfold collectInfoLog
        simp only [downloads_comps, e, createDirAll_exists hd]
        exact cacheTold_fresh h hd

/-- Non-vacuity, and a reader is misled: any text in place of the cache file is logged as metadata that were found, though it be none, in which case the program
panics. -/
theorem C105_refuted_cache (env : LogEnv) (m : Build) (cwd : Loc) (fs : FS) (dial : Dial) (f : Nat) (peerId infoHash c : Bytes) (room : Nat)
    (h : 2 < infoHash.length) (hd : fs (cwd ++ [b!"downloads"]) = some .dir) (hc : fs (cacheLoc cwd infoHash) = some (.file c)) (ht : Text c)
    (hi : Info.fromJson c = none) :
    collectInfoLog env m cwd fs dial f peerId infoHash room = [.cacheFound (cachePath infoHash)] ∧
      (collectInfo m cwd fs dial f peerId infoHash room : Res InfoError (Option Info) × FS) = (.panic, fs) := by
  have e : (PathBuf.mk false [b!"downloads"] false).base cwd = cwd := rfl
  have hrd := readToString_cache h hd
  rw [readFile, hc] at hrd
  simp only [Option.bind_some, (text_iff c).mpr ht, if_true] at hrd
  have hff : Info.fromFile cwd fs (cachePath infoHash) = .panic := by
    unfold Info.fromFile
    rw [hrd]
    simp only [hi]
  rw [collectInfo_exists hd, hff]
  unfold collectInfoLog
  simp only [downloads_comps, e, createDirAll_exists hd, hff, fromFileLog, canOpen_cache h hd, hc, hrd]
  exact ⟨rfl, trivial⟩

/-- Non-vacuity: an empty cache file, such as a save that is cut off leaves. -/
example (env : LogEnv) (dial : Dial) : collectInfoLog env .debug [b!"home"] (cacheFs.set (cacheLoc [b!"home"] (List.replicate 20 7)) (.file [])) dial 5 b!"me"
    (List.replicate 20 7) 100 = [.cacheFound (cachePath (List.replicate 20 7))] :=
  (C105_refuted_cache env .debug [b!"home"] _ dial 5 b!"me" (List.replicate 20 7) [] 100 (by decide)
    (by unfold FS.set; rw [if_neg (Ne.symm (cacheLoc_ne _ _))]; decide +kernel) (by simp [FS.set]) ((text_iff []).mp rfl) (by decide +kernel)).1

/-! ### Writing pieces -/

/-- C105: a piece is said to be written only if it is, on a disk that takes all it is given or reports an error; and it is said if no call reports one. Missing: disks
that take less than they are given (`C105_refuted_short`); the conditions of C51. -/
theorem C105_written_partial (disk : Disk) (t : Nat) (m : Build) (cwd : Loc) (fs : FS) (files : List File) (d : Bytes) (pl i : Nat)
    (h : Placeable cwd fs files d pl) (hi : i < pieceCount d.length pl) :
    (∀ r ∈ writePieceLog disk t m cwd fs (piece d pl i) i files pl, r = .pieceWritten i) ∧
    (NeverShort disk (piece d pl i).length → .pieceWritten i ∈ writePieceLog disk t m cwd fs (piece d pl i) i files pl → ∀ g, i * pl ≤ g → g < (i + 1) * pl →
      g < d.length → diskByte (writePieceFaulty disk t m cwd fs (piece d pl i) i files pl : Res Unit Unit × FS).2 cwd files g = d[g]?) ∧
    (Sound disk (piece d pl i).length → writePieceLog disk t m cwd fs (piece d pl i) i files pl = [.pieceWritten i]) := by
  obtain ⟨ps, hps⟩ := pieceParts (ε := Unit) (m := m) h.length h.small h.pieceLength hi
  obtain ⟨fs1, e1, -, o1, -⟩ := write_clear (ε := Unit) ps h.plain h.separate h.clear hps.right
  have hw : (writePiece m cwd fs (piece d pl i) i files pl : Res Unit Unit × FS) = (.ok (), fs1) := by
    rw [writePiece, hps.writers]
    exact e1
  refine ⟨fun r hr => ?_, fun hs hr g h1 h2 h3 => ?_, fun hs => ?_⟩
  · unfold writePieceLog at hr
    split at hr
    · exact List.mem_singleton.mp hr
    · cases hr
  · unfold writePieceLog at hr
    split at hr
    · rename_i fs' hf
      have := C87_reported_partial disk t m cwd fs fs' _ i files pl hs hf
      rw [hf]
      rw [hw] at this
      cases this
      exact pieceParts_byte hps o1 h1 h2 h3
    · cases hr
  · unfold writePieceLog
    rw [C87_sound disk t m cwd fs (piece d pl i) i files pl hs, hw]

/-- A piece that is cut off is said to be completely written: whatever the content, on an empty disk that takes `n` bytes of it. -/
theorem C105_refuted_short (m : Build) (name d : Bytes) (n : Nat) (hp : Plain [name]) (hd : d ≠ []) (hl : d.length < 2 ^ 64) :
    writePieceLog (fun _ => ⟨none, true, some n⟩) 0 m [] (fun _ => none) d 0 [⟨[name], d.length⟩] d.length = [.pieceWritten 0] ∧
    readFile (writePieceFaulty (fun _ => ⟨none, true, some n⟩) 0 m [] (fun _ => none) d 0 [⟨[name], d.length⟩] d.length : Res Unit Unit × FS).2 [name] =
      some (d.take n) := by
  obtain ⟨fs', e, h1, -⟩ := C87_exact m name d n hp hd hl
  unfold writePieceLog
  rw [e]
  exact ⟨rfl, h1⟩

/-- Non-vacuity: the second piece of a small torrent on a sound disk, and on one that fails when it comes to it. -/
example : (Placeable [b!"home"] sampleFs sampleFiles [1, 2, 3, 4, 5] 2 ∧ NeverShort (fun _ => ⟨none, true, some 5⟩) 5 ∧ Sound (fun _ => ⟨none, true, some 5⟩) 5 ∧
    writePieceLog (fun _ => ⟨none, true, some 5⟩) 0 .debug [b!"home"] sampleFs (piece [1, 2, 3, 4, 5] 2 1) 1 sampleFiles 2 = [.pieceWritten 1]) ∧
    writePieceLog (fun _ => ⟨none, true, none⟩) 0 .debug [b!"home"] sampleFs (piece [1, 2, 3, 4, 5] 2 1) 1 sampleFiles 2 = [] :=
  ⟨⟨sampleLayout.placeable, by intro t k hk; cases hk; exact Nat.le_refl _, fun t => ⟨rfl, rfl, 5, rfl, Nat.le_refl _⟩, rfl⟩, rfl⟩

/-! ### C100 -/

/-- The file name of a cache entry is a text. -/
theorem text_cachePath (infoHash : Bytes) : Text (cachePath infoHash) := by
  refine text_plain (fun b hb => ?_)
  rcases List.mem_append.mp hb with hb | hb
  · have key : ∀ b ∈ b!"./downloads/", b < 128 := by decide
    exact key b hb
  · rcases (C62_safe infoHash).1 b hb with h | h | h | h | h | h
    · unfold IsAlnum at h
      rw [UInt8.lt_iff_toNat_lt]
      simp only [UInt8.le_iff_toNat_le] at h
      have : (128 : UInt8).toNat = 128 := rfl
      simp at h ⊢
      omega
    all_goals (rw [h]; decide)

/-- C100: what is logged about lookups, the cache and the writing of pieces is readable in the sense of `C100_read`, too. -/
theorem C100_others {env : LogEnv} (he : env.Texts) (udp : UdpNet) (http : Bytes → HttpGet) {peerId : Bytes} (hp : Text peerId) (url : TrackerUrl) {view : UrlView}
    (hv : TextUrl view) (hash : Bytes) (m : Build) (cwd : Loc) (fs : FS) (dial : Dial) (f room : Nat) (disk : Disk) (t : Nat) (pc : Bytes) (idx : Nat)
    (files : List File) (pl : Nat) :
    (∀ r ∈ lookupLog env udp http peerId url view hash, TextRecord r) ∧ (∀ r ∈ collectInfoLog env m cwd fs dial f peerId hash room, TextRecord r) ∧
    ∀ r ∈ writePieceLog disk t m cwd fs pc idx files pl, TextRecord r := by
  refine ⟨fun r hr => ?_, fun r hr => ?_, fun r hr => ?_⟩
  · by_cases hu : url.scheme = b!"udp"
    · rw [C105_udp env udp http peerId url view hash hu] at hr
      rcases List.mem_append.mp hr with hr | hr
      · obtain ⟨k, -, rfl⟩ := List.mem_map.mp hr
        exact True.intro
      · split at hr
        · rw [List.mem_singleton.mp hr]; exact hv
        · cases hr
    · unfold lookupLog at hr
      rw [if_neg hu] at hr
      rcases List.mem_append.mp hr with hr | hr
      · split at hr
        · unfold tcpCallLog at hr
          split at hr
          · exact decodeLog_text env _ r hr
          · cases hr
        · cases hr
      · split at hr
        · rw [List.mem_singleton.mp hr]; exact hv
        · cases hr
  · unfold collectInfoLog at hr
    split at hr
    · rcases List.mem_append.mp hr with hr | hr
      · unfold fromFileLog at hr
        split at hr
        · rcases List.mem_cons.mp hr with rfl | hr
          · exact text_cachePath hash
          · split at hr
            · rw [List.mem_singleton.mp hr]; exact ⟨he _, text_cachePath hash⟩
            · cases hr
        · cases hr
      · split at hr
        · rcases List.mem_append.mp hr with hr | hr
          · unfold getInfoDialLog at hr
            split at hr
            · exact (C100_attempts he (fun b => b) m _ f hp hp hash ⟨none, none, [], 0, []⟩ 0).1 r hr
            · cases hr
          · split at hr
            · unfold saveLog at hr
              split at hr
              · rw [List.mem_singleton.mp hr]; exact ⟨he _, text_cachePath hash⟩
              · cases hr
            · cases hr
        · cases hr
    · cases hr
  · unfold writePieceLog at hr
    split at hr
    · rw [List.mem_singleton.mp hr]; exact True.intro
    · cases hr

/-- Non-vacuity: what is shown of a URL is text. -/
example : TextUrl ⟨b!"udp", false, [], none, some (.domain b!"tracker"), some 80, b!"/announce", none, none⟩ := by
  refine ⟨text_plain (by decide), text_plain (by decide), ?_, ?_, text_plain (by decide), ?_, ?_⟩ <;> intro x hx <;> cases hx
  exact text_plain (by decide)

end RustBit
