/-
C71 for the server with its routes, charsets and encodings of the content, and C118: who can make the program download.
-/
import Verif.Spec.Server
import Verif.Model.App
import Verif.Props.MagnetRead
import Verif.Props.Process

namespace RustBit
open Spec Magnet

/-! ### What a request carries -/

theorem header_says {r : HttpRequest} {name v : Bytes} : r.header name = some v ↔ Says r name v := by
  rw [HttpRequest.header, Option.map_eq_some_iff]
  constructor
  · rintro ⟨⟨n, x⟩, h, rfl⟩
    obtain ⟨hn, pre, post, e, hp⟩ := List.find?_eq_some_iff_append.mp h
    have : n = name := by simpa using hn
    subst this
    exact ⟨pre, post, e, fun y hy => by simpa using hp y hy⟩
  · rintro ⟨pre, post, e, hp⟩
    exact ⟨(name, v), List.find?_eq_some_iff_append.mpr ⟨by simp, pre, post, e, fun y hy => by simpa using hp y hy⟩, rfl⟩

theorem header_silent {r : HttpRequest} {name : Bytes} : r.header name = none ↔ Silent r name := by
  rw [HttpRequest.header, Option.map_eq_none_iff, List.find?_eq_none]
  exact ⟨fun h e he => by simpa using h e he, fun h e he => by simpa using h e he⟩

theorem carries_iff (lib : Actix) (m : Build) (r : HttpRequest) (ha : Aimed r) (text : Bytes) (h : Carries lib r text) :
    serve lib m r = match parseMagnet m text with
      | .ok infoHash => (.handled .ok, some infoHash)
      | _ => (.handled .dropped, none) := by
  obtain ⟨decode, b, h1, h2, h3, h4, h5⟩ := h
  have e1 : lib.decoder (r.header b!"content-type") = some decode := by
    rcases h1 with ⟨h, rfl⟩ | ⟨v, h, hc⟩
    · rw [header_silent.mpr h]; rfl
    · rw [header_says.mpr h]; exact hc
  have e2 : lib.unpacked (r.header b!"content-encoding") r.body = some b := by
    rcases h2 with ⟨h, rfl⟩ | ⟨v, h, hc⟩
    · rw [header_silent.mpr h]; rfl
    · rw [header_says.mpr h]; exact hc
  unfold serve
  rw [if_neg (by rw [ha.1, ha.2]; simp), e1]
  simp only []
  rw [if_neg (by rintro ⟨hc, hl⟩; have := h3 hc; omega), e2]
  simp only []
  rw [if_neg (by omega), h5]
  rfl

/-- Whatever is not `POST /add/magnet` is answered with 404, and what is and carries no text is refused; nothing is started. -/
theorem carries_not (lib : Actix) (m : Build) (r : HttpRequest) (h : ¬ (Aimed r ∧ ∃ text, Carries lib r text)) :
    (serve lib m r).2 = none ∧ (serve lib m r).1 ∈ [.notFound, .handled .badRequest, .handled .payloadTooLarge] ∧
      ((serve lib m r).1 = .notFound ↔ ¬ Aimed r) := by
  unfold serve
  by_cases ha : Aimed r
  · rw [if_neg (by rw [ha.1, ha.2]; simp)]
    simp only [ha, not_true, iff_false, true_and] at h ⊢
    cases hd : lib.decoder (r.header b!"content-type") with
    | none => simp
    | some decode =>
      simp only []
      split
      · simp
      · rename_i hw
        cases hu : lib.unpacked (r.header b!"content-encoding") r.body with
        | none => simp
        | some b =>
          simp only []
          split
          · simp
          · rename_i hb
            cases ht : decode b with
            | none => simp
            | some text =>
              exfalso
              refine h ⟨text, decode, b, ?_, ?_, fun hc => Nat.le_of_not_lt (fun hl => hw ⟨hc, hl⟩), Nat.le_of_not_lt hb, ht⟩
              · cases hv : r.header b!"content-type" with
                | none => rw [hv] at hd; exact .inl ⟨header_silent.mp hv, (Option.some.inj hd).symm⟩
                | some v => rw [hv] at hd; exact .inr ⟨v, header_says.mp hv, hd⟩
              · cases hv : r.header b!"content-encoding" with
                | none => rw [hv] at hu; exact .inl ⟨header_silent.mp hv, (Option.some.inj hu).symm⟩
                | some v => rw [hv] at hu; exact .inr ⟨v, header_says.mp hv, hu⟩
  · rw [if_pos]
    · simp [ha]
    · by_cases hm : r.method = b!"POST"
      · exact .inr (fun hp => ha ⟨hm, hp⟩)
      · exact .inl hm

/-- Which texts are not taken for magnet links. -/
theorem parseMagnet_fails (m : Build) (text : Bytes) : (∀ h, parseMagnet m text ≠ .ok h) ↔
    text.length ≤ 60 ∨ ¬ b!"magnet:?" <+: text ∨ (m = .debug ∧ text[60]? = some c!"&" ∧ ∃ c ∈ (text.take 60).drop 20, c < 48) := by
  rw [parseMagnet_cases]
  by_cases hv : text.length < 60 ∨ ¬ b!"magnet:?" <+: text
  · rw [if_pos hv]
    simp only [ne_eq, reduceCtorEq, not_false_eq_true, implies_true, true_iff]
    rcases hv with hv | hv
    · exact .inl (by omega)
    · exact .inr (.inl hv)
  · rw [if_neg hv]
    rw [not_or, Classical.not_not] at hv
    cases hc : text[60]? with
    | none =>
      simp only [ne_eq, reduceCtorEq, not_false_eq_true, implies_true, true_iff]
      exact .inl (List.getElem?_eq_none_iff.mp hc)
    | some c =>
      have hl : 60 < text.length := (List.getElem?_eq_some_iff.mp hc).1
      simp only [hv.2, not_true, false_or, Option.some.injEq]
      by_cases hx : c = c!"&"
      · rw [if_pos hx]
        have he : ((text.take 60).drop 20).length % 2 = 0 := by rw [List.length_drop, List.length_take]; omega
        by_cases hd : m = .debug ∧ ∃ c ∈ (text.take 60).drop 20, c < 48
        · rw [(hexDecode_panic m _ he).mpr hd]
          simp only [ne_eq, reduceCtorEq, not_false_eq_true, implies_true, true_iff]
          exact .inr ⟨hd.1, hx, hd.2⟩
        · obtain ⟨x, h⟩ := hexDecode_ok m ((text.take 60).drop 20) (by
            cases m with
            | release => exact .inl rfl
            | debug =>
              refine .inr (fun c hc => ?_)
              have := fun h' => hd ⟨rfl, c, hc, h'⟩
              simpa using this)
          rw [h]
          refine ⟨fun h' => absurd rfl (h' x), ?_⟩
          rintro (h' | h')
          · omega
          · exact absurd ⟨h'.1, h'.2.2⟩ hd
      · rw [if_neg hx]
        refine ⟨fun h' => absurd rfl (h' _), ?_⟩
        rintro (h' | h')
        · omega
        · exact absurd h'.2.1 hx

/-! ### C71 -/

/-- C71, exactly which requests to the server are not answered, whatever their charset and the encoding of their content: those to the one page there
is that carry a text which is not a magnet link of more than 60 bytes (in a debug build also those with `&` at position 60 and a byte below `0` among
the forty before it). -/
theorem C71_served_exact (lib : Actix) (m : Build) (r : HttpRequest) : (serve lib m r).1 = .handled .dropped ↔
    Aimed r ∧ ∃ text, Carries lib r text ∧ (text.length ≤ 60 ∨ ¬ b!"magnet:?" <+: text ∨
      (m = .debug ∧ text[60]? = some c!"&" ∧ ∃ c ∈ (text.take 60).drop 20, c < 48)) := by
  constructor
  · intro h
    by_cases hc : Aimed r ∧ ∃ text, Carries lib r text
    · obtain ⟨ha, text, ht⟩ := hc
      refine ⟨ha, text, ht, (parseMagnet_fails m text).mp (fun x hx => ?_)⟩
      rw [carries_iff lib m r ha text ht, hx] at h
      cases h
    · have := (carries_not lib m r hc).2.1
      rw [h] at this
      simp at this
  · rintro ⟨ha, text, ht, hf⟩
    rw [carries_iff lib m r ha text ht]
    have := (parseMagnet_fails m text).mpr hf
    cases hp : parseMagnet m text with
    | ok h => exact absurd hp (this h)
    | _ => rfl

/-- C71: the server starts a torrent if and only if it answers 200, and the answer is 404 if and only if the request is not to the one page there is. -/
theorem C71_served (lib : Actix) (m : Build) (r : HttpRequest) : ((serve lib m r).2.isSome ↔ (serve lib m r).1 = .handled .ok) ∧
    ((serve lib m r).1 = .notFound ↔ ¬ Aimed r) := by
  by_cases hc : Aimed r ∧ ∃ text, Carries lib r text
  · obtain ⟨ha, text, ht⟩ := hc
    rw [carries_iff lib m r ha text ht]
    cases parseMagnet m text <;> simp [ha]
  · obtain ⟨h1, h2, h3⟩ := carries_not lib m r hc
    refine ⟨?_, h3⟩
    rw [h1]
    simp only [Option.isSome_none, Bool.false_eq_true, false_iff]
    intro h
    rw [h] at h2
    simp at h2

/-- C71: the requests of the other theorems about C71 are those that declare their length but neither a type nor an encoding of their content. -/
theorem C71_served_plain (lib : Actix) (m : Build) (r : HttpRequest) (ha : Aimed r) (ht : Silent r b!"content-type")
    (he : Silent r b!"content-encoding") (hc : r.chunked = false) :
    serve lib m r = (.handled (addMagnet m r.body).1, (addMagnet m r.body).2) := by
  unfold serve addMagnet
  rw [if_neg (by rw [ha.1, ha.2]; simp), header_silent.mpr ht, header_silent.mpr he]
  simp only [Actix.decoder, Actix.unpacked, hc, true_and, decodeUtf8]
  split
  · rfl
  · rename_i hl
    cases validUtf8 r.body with
    | false => rfl
    | true =>
      simp only [if_true, Bool.not_true, Bool.false_eq_true, if_false]
      cases parseMagnet m r.body <;> rfl

/-- Text can be cut at most three bytes after any position. -/
theorem utf8_cut : ∀ (k : Nat) (t : Bytes) (n : Nat), t.length ≤ k → validUtf8 t = true → n ≤ t.length →
    ∃ l, n ≤ l ∧ l ≤ n + 3 ∧ l ≤ t.length ∧ validUtf8 (t.take l) = true := by
  intro k
  induction k with
  | zero =>
    intro t n hk _ hn
    exact ⟨0, by omega, by omega, by omega, by simp [validUtf8]⟩
  | succ k ih =>
    intro t n hk hv hn
    by_cases hz : n = 0
    · exact ⟨0, by omega, by omega, by omega, by simp [validUtf8]⟩
    match t, hk, hv, hn with
    | [], _, _, hn => simp at hn; omega
    | b :: t, hk, hv, hn =>
      rw [List.length_cons] at hk hn
      unfold validUtf8 at hv
      split at hv
      · rename_i hb
        obtain ⟨l, h1, h2, h3, h4⟩ := ih t (n - 1) (by omega) hv (by omega)
        refine ⟨l + 1, by omega, by omega, by simp; omega, ?_⟩
        rw [List.take_succ_cons, validUtf8.eq_def]
        simp only [if_pos hb, h4]
      · rename_i hb
        split at hv
        · cases hv
        · rename_i c t2
          rw [List.length_cons] at hk hn
          split at hv
          · rename_i h2b
            rw [Bool.and_eq_true] at hv
            by_cases hs : n ≤ 2
            · refine ⟨2, hs, by omega, by simp, ?_⟩
              rw [List.take_succ_cons, List.take_succ_cons, List.take_zero, validUtf8.eq_def]
              simp only [if_neg hb]
              simp only [h2b, if_true, hv.1, validUtf8, Bool.and_self]
            · obtain ⟨l, h1, h2, h3, h4⟩ := ih t2 (n - 2) (by omega) hv.2 (by omega)
              refine ⟨l + 2, by omega, by omega, by simp; omega, ?_⟩
              rw [List.take_succ_cons, List.take_succ_cons, validUtf8.eq_def]
              simp only [if_neg hb]
              simp only [h2b, if_true, hv.1, h4, Bool.and_self]
          · rename_i h2b
            split at hv
            · cases hv
            · rename_i d t3
              rw [List.length_cons] at hk hn
              split at hv
              · rename_i h3b
                rw [Bool.and_eq_true] at hv
                by_cases hs : n ≤ 3
                · refine ⟨3, hs, by omega, by simp, ?_⟩
                  rw [List.take_succ_cons, List.take_succ_cons, List.take_succ_cons, List.take_zero, validUtf8.eq_def]
                  simp only [if_neg hb]
                  simp only [h2b, h3b, if_true, if_false, hv.1, validUtf8, Bool.and_self, Bool.false_eq_true]
                · obtain ⟨l, h1, h2, h3, h4⟩ := ih t3 (n - 3) (by omega) hv.2 (by omega)
                  refine ⟨l + 3, by omega, by omega, by simp; omega, ?_⟩
                  rw [List.take_succ_cons, List.take_succ_cons, List.take_succ_cons, validUtf8.eq_def]
                  simp only [if_neg hb]
                  simp only [h2b, h3b, if_true, if_false, hv.1, h4, Bool.and_self, Bool.false_eq_true]
              · rename_i h3b
                split at hv
                · cases hv
                · rename_i e t4
                  rw [List.length_cons] at hk hn
                  simp only [Bool.and_eq_true] at hv
                  by_cases hs : n ≤ 4
                  · refine ⟨4, hs, by omega, by simp, ?_⟩
                    rw [List.take_succ_cons, List.take_succ_cons, List.take_succ_cons, List.take_succ_cons, List.take_zero, validUtf8.eq_def]
                    simp only [if_neg hb]
                    simp only [h2b, h3b, if_false, hv.1.1.1, hv.1.1.2, hv.1.2, validUtf8, Bool.and_self, Bool.false_eq_true]
                  · obtain ⟨l, h1, h2, h3, h4⟩ := ih t4 (n - 4) (by omega) hv.2 (by omega)
                    refine ⟨l + 4, by omega, by omega, by simp; omega, ?_⟩
                    rw [List.take_succ_cons, List.take_succ_cons, List.take_succ_cons, List.take_succ_cons, validUtf8.eq_def]
                    simp only [if_neg hb]
                    simp only [h2b, h3b, if_false, hv.1.1.1, hv.1.1.2, hv.1.2, h4, Bool.and_self, Bool.false_eq_true]

/-- Nothing of a link counts after its 61st byte. -/
theorem parseMagnet_take {m : Build} {text hash : Bytes} (h : parseMagnet m text = .ok hash) {l : Nat} (hl : 61 ≤ l) :
    parseMagnet m (text.take l) = .ok hash := by
  have hn : ¬ (text.length ≤ 60 ∨ ¬ b!"magnet:?" <+: text ∨ (m = .debug ∧ text[60]? = some c!"&" ∧ ∃ c ∈ (text.take 60).drop 20, c < 48)) :=
    fun hf => (parseMagnet_fails m text).mpr hf hash h
  rw [not_or, not_or, Classical.not_not] at hn
  obtain ⟨h1, h2, -⟩ := hn
  have h8 : b!"magnet:?" <+: text.take l := by
    rw [List.prefix_take_iff]
    exact ⟨h2, by simp only [List.length_cons, List.length_nil]; omega⟩
  rw [parseMagnet_cases] at h ⊢
  rw [if_neg (by simp only [not_or, Classical.not_not]; exact ⟨by omega, h2⟩)] at h
  rw [if_neg (by simp only [not_or, Classical.not_not]; exact ⟨by rw [List.length_take]; omega, h8⟩)]
  rw [List.getElem?_take_of_lt (by omega), List.take_take, List.take_take, Nat.min_eq_left (by omega), Nat.min_eq_left (by omega)]
  exact h

/-- C71: charsets, compression and chunks add nothing: every torrent that any request starts is one that some request with a plain body of at most 64
bytes starts. So a model of the program in which all requests are plain has all the runs there are. -/
theorem C71_plain_suffices (lib : Actix) (hlib : DecodesToText lib) (m : Build) (r : HttpRequest) (hash : Bytes) (h : (serve lib m r).2 = some hash) :
    ∃ body, body.length ≤ 64 ∧ addMagnet m body = (.ok, some hash) := by
  by_cases hc : Aimed r ∧ ∃ text, Carries lib r text
  · obtain ⟨ha, text, ht⟩ := hc
    rw [carries_iff lib m r ha text ht] at h
    have hp : parseMagnet m text = .ok hash := by
      cases hp : parseMagnet m text with
      | ok x => rw [hp] at h; rw [Option.some.inj h]
      | _ => rw [hp] at h; cases h
    have hu : validUtf8 text = true := by
      obtain ⟨decode, b, h1, -, -, -, h5⟩ := ht
      rcases h1 with ⟨-, rfl⟩ | ⟨v, -, hv⟩
      · unfold decodeUtf8 at h5
        split at h5
        · rename_i hb; rw [← Option.some.inj h5]; exact hb
        · cases h5
      · exact hlib v decode b text hv h5
    have h61 : 61 ≤ text.length := by
      refine Nat.lt_of_not_le (fun hl => ?_)
      exact (parseMagnet_fails m text).mpr (.inl hl) hash hp
    obtain ⟨l, a1, a2, a3, a4⟩ := utf8_cut text.length text 61 (Nat.le_refl _) hu h61
    refine ⟨text.take l, by rw [List.length_take]; omega, ?_⟩
    unfold addMagnet
    rw [if_neg (by rw [List.length_take]; omega), a4, parseMagnet_take hp a1]
    rfl
  · rw [(carries_not lib m r hc).1] at h
    cases h

/-! ### C118 -/

/-- A request from a page of the site `origin` with this body. -/
def pageRequest (origin body : Bytes) : HttpRequest :=
  ⟨b!"POST", b!"/add/magnet", [(b!"host", b!"127.0.0.1:8080"), (b!"origin", origin)], false, body⟩

theorem pageRequest_from (origin body : Bytes) : FromPage origin (pageRequest origin body) :=
  ⟨by simp [pageRequest], header_says.mp rfl, (fun _ h => by cases header_says.mpr h), header_silent.mp rfl, rfl⟩

theorem pageRequest_served (lib : Actix) (m : Build) (origin body : Bytes) :
    serve lib m (pageRequest origin body) = (.handled (addMagnet m body).1, (addMagnet m body).2) :=
  C71_served_plain lib m (pageRequest origin body) ⟨rfl, rfl⟩ (header_silent.mp rfl) (header_silent.mp rfl) rfl

/-- The full C118 is false: for every torrent and every web site, a page of the site can have the torrent started. -/
theorem C118_refuted (lib : Actix) (m : Build) (origin hash : Bytes) (hl : hash.length = 20) :
    ∃ r, FromPage origin r ∧ serve lib m r = (.handled .ok, some hash) := by
  obtain ⟨digits, hx⟩ := hex_exists hash
  refine ⟨_, pageRequest_from origin (btihPrefix ++ digits ++ c!"&" :: []), ?_⟩
  rw [pageRequest_served, C71_hex_partial m hash digits [] hl hx rfl (by simp)]

/-- Nor is there any torrent that the user can have started and a page of a web site cannot. -/
theorem C118_refuted_all (lib : Actix) (hlib : DecodesToText lib) (m : Build) (origin hash : Bytes) (r : HttpRequest) (h : (serve lib m r).2 = some hash) :
    ∃ r', FromPage origin r' ∧ serve lib m r' = (.handled .ok, some hash) := by
  obtain ⟨body, -, hb⟩ := C71_plain_suffices lib hlib m r hash h
  exact ⟨_, pageRequest_from origin body, by rw [pageRequest_served, hb]⟩

/-- C118, at every moment of a run: the program, if it runs and has a free thread, takes such a request, and the torrent is there. -/
theorem C118_refuted_program (lib : Actix) (w : World) (A : App) (hl : A.proc.log ≠ none) (thread : Nat) (hb : thread < A.threads) (hf : thread ∉ A.stuck)
    (origin hash : Bytes) (hh : hash.length = 20) : ∃ r A', FromPage origin r ∧ serve lib w.build r = (.handled .ok, some hash) ∧ AStep w A A' ∧
      A'.proc.slots = A.proc.slots ++ [⟨Sys.init hash A.proc.fs, none⟩] := by
  obtain ⟨digits, hx⟩ := hex_exists hash
  have ha := C71_hex_partial w.build hash digits [] hh hx rfl (by simp)
  refine ⟨_, _, pageRequest_from origin (btihPrefix ++ digits ++ c!"&" :: []), by rw [pageRequest_served, ha],
    .add A hl _ hash ha thread hb hf _ (.add A.trackers ⟨hash, A.proc.slots.length⟩) rfl, rfl⟩

/-- C118, why: two requests with the same method, path, body, type and encoding of the content have the same effect and get the same answer,
whatever else they say: where they come from, for which host they are meant, who sends them. -/
theorem C118_blind (lib : Actix) (m : Build) (r r' : HttpRequest) (h1 : r.method = r'.method) (h2 : r.path = r'.path) (h3 : r.body = r'.body)
    (h4 : r.chunked = r'.chunked) (h5 : ∀ v, Says r b!"content-type" v ↔ Says r' b!"content-type" v)
    (h6 : ∀ v, Says r b!"content-encoding" v ↔ Says r' b!"content-encoding" v) : serve lib m r = serve lib m r' := by
  have key : ∀ name, (∀ v, Says r name v ↔ Says r' name v) → r.header name = r'.header name := by
    intro name h
    refine Option.ext (fun v => ?_)
    rw [header_says, header_says]
    exact h v
  unfold serve
  rw [h1, h2, h3, h4, key _ h5, key _ h6]

/-- C118, the part that holds: what pages load and link to, and all else that is not a POST to the one page there is, starts nothing. Missing: POST
requests. -/
theorem C118_links_partial (lib : Actix) (m : Build) (r : HttpRequest) (h : r.method ≠ b!"POST" ∨ r.path ≠ b!"/add/magnet") :
    serve lib m r = (.notFound, none) := by
  unfold serve
  rw [if_pos h]

/-- C118, exactly: of the requests of web pages, those start a torrent that are POST requests to the one page there is, with no type or one whose
charset is known, and whose body is not too long and is text in that charset that is taken for a magnet link. -/
theorem C118_exact (lib : Actix) (m : Build) (origin : Bytes) (r : HttpRequest) (hp : FromPage origin r) (hash : Bytes) :
    (serve lib m r).2 = some hash ↔ Aimed r ∧ r.body.length ≤ 262144 ∧ ∃ text, b!"magnet:?" <+: text ∧
      (Silent r b!"content-type" ∧ validUtf8 r.body = true ∧ text = r.body ∨
        ∃ v decode, Says r b!"content-type" v ∧ lib.charset v = some decode ∧ decode r.body = some text) ∧
      ((∃ pre ds rest, text = pre ++ ds ++ c!"&" :: rest ∧ pre.length = 20 ∧ ds.length = 40 ∧ (m = .debug → ∀ c ∈ ds, 48 ≤ c) ∧ Loose hash ds) ∨
       (∃ pre more c rest, text = pre ++ hash ++ more ++ c :: rest ∧ pre.length = 20 ∧ hash.length = 32 ∧ more.length = 8 ∧ c ≠ c!"&")) := by
  have hcar : ∀ text, Carries lib r text ↔ r.body.length ≤ 262144 ∧ (Silent r b!"content-type" ∧ validUtf8 r.body = true ∧ text = r.body ∨
        ∃ v decode, Says r b!"content-type" v ∧ lib.charset v = some decode ∧ decode r.body = some text) := by
    intro text
    constructor
    · rintro ⟨decode, b, h1, h2, h3, h4, h5⟩
      have hb : b = r.body := by
        rcases h2 with ⟨-, h⟩ | ⟨v, h, -⟩
        · exact h
        · have := header_says.mpr h
          rw [header_silent.mpr hp.plain] at this
          cases this
      subst hb
      refine ⟨h4, ?_⟩
      rcases h1 with ⟨h, rfl⟩ | ⟨v, h, hc⟩
      · unfold decodeUtf8 at h5
        split at h5
        · rename_i hv; exact .inl ⟨h, hv, (Option.some.inj h5).symm⟩
        · cases h5
      · exact .inr ⟨v, decode, h, hc, h5⟩
    · rintro ⟨h4, h⟩
      rcases h with ⟨h, hv, rfl⟩ | ⟨v, decode, h, hc, h5⟩
      · exact ⟨decodeUtf8, r.body, .inl ⟨h, rfl⟩, .inl ⟨hp.plain, rfl⟩, fun _ => h4, h4, by rw [decodeUtf8, if_pos hv]⟩
      · exact ⟨decode, r.body, .inr ⟨v, h, hc⟩, .inl ⟨hp.plain, rfl⟩, fun _ => h4, h4, h5⟩
  constructor
  · intro h
    by_cases hc : Aimed r ∧ ∃ text, Carries lib r text
    · obtain ⟨ha, text, ht⟩ := hc
      rw [carries_iff lib m r ha text ht] at h
      have hp : parseMagnet m text = .ok hash := by
        cases hp : parseMagnet m text with
        | ok x => rw [hp] at h; rw [Option.some.inj h]
        | _ => rw [hp] at h; cases h
      obtain ⟨b1, b2⟩ := (hcar text).mp ht
      obtain ⟨c1, c2⟩ := (C18_reads m text hash).mp hp
      exact ⟨ha, b1, text, c1, b2, c2⟩
    · rw [(carries_not lib m r hc).1] at h
      cases h
  · rintro ⟨ha, b1, text, c1, b2, c2⟩
    rw [carries_iff lib m r ha text ((hcar text).mpr ⟨b1, b2⟩), (C18_reads m text hash).mpr ⟨c1, c2⟩]

/-! ### Cases -/

/-- A library that knows UTF-8, and UTF-16 for characters below 128. -/
def sampleActix : Actix where
  charset v :=
    if v = b!"text/plain;charset=UTF-8" then some decodeUtf8
    else if v = b!"text/plain;charset=UTF-16LE" then
      some (fun b => if b.length % 2 = 0 ∧ (List.range (b.length / 2)).all (fun i => b.getD (2 * i) 0 < 128 && b.getD (2 * i + 1) 0 == 0) then
        some ((List.range (b.length / 2)).map (fun i => b.getD (2 * i) 0)) else none)
    else none
  unpack v b := if v = b!"x-reverse" then some b.reverse else none

/-- Non-vacuity of C71_plain_suffices and C118_refuted_all: the decoders of the sample library give text. -/
example : DecodesToText sampleActix := by
  intro v decode b text h ht
  unfold sampleActix at h
  simp only at h
  split at h
  · obtain rfl := Option.some.inj h
    unfold decodeUtf8 at ht
    split at ht
    · rename_i hb; rw [← Option.some.inj ht]; exact hb
    · cases ht
  · split at h
    · obtain rfl := Option.some.inj h
      simp only at ht
      split at ht
      · rename_i hb
        rw [← Option.some.inj ht]
        refine validUtf8_of_ascii _ (fun c hc => ?_)
        obtain ⟨i, hi, rfl⟩ := List.mem_map.mp hc
        have := List.all_eq_true.mp hb.2 i hi
        rw [Bool.and_eq_true] at this
        simpa using this.1
      · cases ht
    · cases h

/-- A magnet link of forty zeros. -/
def zeroLink : Bytes := btihPrefix ++ List.replicate 40 c!"0" ++ b!"&"

/-- A link in UTF-16 starts its torrent, and so does a compressed one; the same bytes without the header do not; an unknown charset is refused. -/
example : serve sampleActix .debug ⟨b!"POST", b!"/add/magnet", [(b!"content-type", b!"text/plain;charset=UTF-16LE")], false, zeroLink.flatMap (fun c => [c, 0])⟩ =
      (.handled .ok, some (List.replicate 20 0)) ∧
    serve sampleActix .debug ⟨b!"POST", b!"/add/magnet", [(b!"content-encoding", b!"x-reverse")], true, zeroLink.reverse⟩ = (.handled .ok, some (List.replicate 20 0)) ∧
    serve sampleActix .debug ⟨b!"POST", b!"/add/magnet", [], false, zeroLink.reverse⟩ = (.handled .dropped, none) ∧
    serve sampleActix .debug ⟨b!"POST", b!"/add/magnet", [(b!"content-type", b!"text/plain;charset=klingon")], false, zeroLink⟩ = (.handled .badRequest, none) ∧
    serve sampleActix .debug ⟨b!"GET", b!"/add/magnet", [], false, zeroLink⟩ = (.notFound, none) := by
  refine ⟨?_, ?_, ?_, ?_, ?_⟩ <;> decide +kernel

/-- Non-vacuity of C118_exact: a form of a page, sent as plain text, and the torrent it starts. -/
example : FromPage b!"https://example.org" ⟨b!"POST", b!"/add/magnet", [(b!"origin", b!"https://example.org"), (b!"content-type", b!"text/plain;charset=UTF-8")], false, zeroLink⟩ ∧
    serve sampleActix .release ⟨b!"POST", b!"/add/magnet", [(b!"origin", b!"https://example.org"), (b!"content-type", b!"text/plain;charset=UTF-8")], false, zeroLink⟩ =
      (.handled .ok, some (List.replicate 20 0)) := by
  refine ⟨⟨by simp, header_says.mp rfl, ?_, header_silent.mp rfl, rfl⟩, by decide +kernel⟩
  intro v hv
  rw [← header_says] at hv
  have : v = b!"text/plain;charset=UTF-8" := by
    have e : (HttpRequest.mk b!"POST" b!"/add/magnet" [(b!"origin", b!"https://example.org"), (b!"content-type", b!"text/plain;charset=UTF-8")] false zeroLink).header b!"content-type" =
      some b!"text/plain;charset=UTF-8" := rfl
    rw [e] at hv
    exact (Option.some.inj hv).symm
  subst this
  exact ⟨_, .head _, by decide⟩

/-- Non-vacuity of C118_refuted_program: a program that has just started. -/
example (fs : FS) : ∃ A : App, A.proc.log ≠ none ∧ 0 < A.threads ∧ 0 ∉ A.stuck :=
  ⟨⟨⟨[], fs, [], some 0, []⟩, Trackers.init, 1, 0, [], []⟩, by simp, by simp, by simp⟩

end RustBit
