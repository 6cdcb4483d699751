/-
The whole program: a torrent only has to do with peers that trackers named for it (C80); what is proved of the process holds of the program (C81).
-/
import Verif.Proofs.App
import Verif.Props.Resume

namespace RustBit
open Spec

theorem told_named {log : List Exchange} {found : List (Nat × PeerEndpoint)} (h : Told log found) :
    ∀ x ∈ found, ∃ e ∈ log, e.about.torrent = x.1 ∧ ∃ qs, Reached e.reach 0 e.peers qs ∧ x.2 ∈ qs := by
  induction h with
  | nil => exact fun x hx => by cases hx
  | snoc h e qs hr ih =>
    intro x hx
    rcases List.mem_append.mp hx with hx | hx
    · obtain ⟨e', he', r⟩ := ih x hx
      exact ⟨e', List.mem_append_left _ he', r⟩
    · obtain ⟨p, hp, rfl⟩ := List.mem_map.mp hx
      exact ⟨e, by simp, rfl, qs, hr, hp⟩

theorem named_of_told {A : App} (h : AInv A) {k : Nat} {s : Slot} (hk : A.proc.slots[k]? = some s) {p : PeerEndpoint} (hp : p ∈ s.sys.told) :
    NamedFor A.trackers s.sys.torrent.infoHash p := by
  rw [h.told k s hk, messagesTo] at hp
  obtain ⟨⟨j, q⟩, hx, rfl⟩ := List.mem_map.mp hp
  obtain ⟨hx', hj⟩ := List.mem_filter.mp hx
  have hj : j = k := by simpa using hj
  subst hj
  obtain ⟨h1, h2, h3⟩ := C73_right_torrent h.trackers
  obtain ⟨e, he, ht, hq⟩ := told_named h1 _ (List.mem_of_mem_take hx')
  obtain ⟨i, hi⟩ := List.getElem?_of_mem (h3 e he)
  have ha := h.added i
  rw [hi] at ha
  cases hs : A.proc.slots[i]? with
  | none => rw [hs] at ha; cases ha
  | some s' =>
    rw [hs, Option.map_some, Option.some.injEq] at ha
    have e1 : i = j := by
      have : e.about.torrent = i := by rw [ha]
      rw [← this]
      exact ht
    subst e1
    rw [hs] at hk
    cases hk
    exact ⟨e, he, h2 e he, by rw [ha], hq⟩

/-- C80: the messages `PeerFound` that a torrent has got are exactly those sent to it, in the order in which they were sent (with others on their
way), and each names a peer that a tracker gave when asked about the info hash of this torrent. -/
theorem C80_hears {w : World} {fs : FS} {n : Nat} {A : App} (h : ASteps w (fun _ => True) (App.init fs n) A) {k : Nat} {s : Slot} (hk : A.proc.slots[k]? = some s) :
    s.sys.told = messagesTo k (A.trackers.found.take A.delivered) ∧ ∀ p ∈ s.sys.told, NamedFor A.trackers s.sys.torrent.infoHash p := by
  have hi := ainv_steps h (ainv_init fs n)
  exact ⟨hi.told k s hk, fun p hp => named_of_told hi hk hp⟩

/-- C80: whatever a torrent may connect to, for metadata or for a piece, is the endpoint of a peer that a tracker named for this torrent and that
accepted a connection. -/
theorem C80_dials {w : World} {fs : FS} {n : Nat} {A : App} (h : ASteps w (fun _ => True) (App.init fs n) A) {k : Nat} {s : Slot} (hk : A.proc.slots[k]? = some s)
    {endpoint : Bytes} (hd : MayDial s.sys endpoint) : ∃ p, NamedFor A.trackers s.sys.torrent.infoHash p ∧ p.endpoint = endpoint := by
  have hi := ainv_steps h (ainv_init fs n)
  rcases hd with ⟨p, hp, e⟩ | ⟨r, hr, e⟩
  · exact ⟨p, named_of_told hi hk (by
      simp only [Sys.told, List.mem_filterMap]
      exact ⟨_, List.mem_append_right _ hp, rfl⟩), e⟩
  · obtain ⟨p, hp, e'⟩ := (hi.asked k s hk).requests r hr
    exact ⟨p, named_of_told hi hk hp, e'.trans e⟩

/-- C80: no message is lost between the trackers and the torrents: as long as the program runs, the next one can be delivered. -/
theorem C80_delivery {w : World} {fs : FS} {n : Nat} {A : App} (h : ASteps w (fun _ => True) (App.init fs n) A) (hl : A.proc.log ≠ none)
    (hn : A.delivered < A.trackers.found.length) : ∃ A', AStep w A A' ∧ A'.delivered = A.delivered + 1 ∧ A'.trackers = A.trackers := by
  have hi := ainv_steps h (ainv_init fs n)
  have hg : A.trackers.found[A.delivered]? = some (A.trackers.found[A.delivered].1, A.trackers.found[A.delivered].2) := List.getElem?_eq_getElem hn
  obtain ⟨r, hr, e, -⟩ := C73_messages_are_peers hi.trackers _ (List.getElem_mem hn)
  obtain ⟨i, hir⟩ := List.getElem?_of_mem hr
  have ha := hi.added i
  rw [hir] at ha
  cases hs : A.proc.slots[i]? with
  | none => rw [hs] at ha; cases ha
  | some s =>
    rw [hs, Option.map_some, Option.some.injEq] at ha
    have e1 : A.trackers.found[A.delivered].1 = i := by rw [e, ha]
    exact ⟨_, .deliver A hl i _ s (by rw [hg, e1]) hs, rfl, rfl⟩

/-- C81: the program refines the process and the trackers: its runs, seen from the disk, are runs of the process, and the trackers it has are
reached from new ones by steps of the trackers. -/
theorem C81_refines {w : World} {Q : Info → Prop} {fs : FS} {n : Nat} {A : App} (h : ASteps w Q (App.init fs n) A) :
    PSteps w Q (Proc.init fs) A.proc ∧ TSteps Trackers.init A.trackers :=
  ⟨proc_steps (ainv_init fs n) h, (ainv_steps h (ainv_init fs n)).trackers⟩

/-- C81 for files: once every piece of a torrent is written its files are right and stay so, whatever the peers, the trackers and the other torrents do,
however often the program is stopped, as long as every torrent is the same one or has files elsewhere. -/
theorem C81_files_partial {w : World} {info : Info} {d : Bytes} {fs : FS} {n : Nat} {A A' : App} {s : Slot} (hd : Describes w.sha info d)
    (hlay : Layout w.cwd fs (listedFiles info) d info.pieceLength) (hres : Unreserved info)
    (h1 : ASteps w (Beside info) (App.init fs n) A) (hs : s ∈ A.proc.slots) (hi : s.sys.torrent.info = some info)
    (hall : ∀ i, i < pieceCount d.length info.pieceLength → i ∈ s.sys.written.map Ready.idx) (h2 : ASteps w (Beside info) A A') :
    (∃ r, (info, r) ∈ A'.proc.taken ∧ Collision w.sha r.piece (piece d info.pieceLength r.idx)) ∨ FilesRight A'.proc.fs w.cwd (listedFiles info) d :=
  C69_files_partial hd hlay hres (proc_steps (ainv_init fs n) h1) hs hi hall (proc_steps (ainv_steps h1 (ainv_init fs n)) h2)

/-- C81 for files over what was there: as `C81_files_partial`, but files of any length may be in the way: the files are right exactly if none of them is
longer than listed. -/
theorem C81_exactly_partial {w : World} {info : Info} {d : Bytes} {fs : FS} {n : Nat} {A A' : App} {s : Slot} (hd : Describes w.sha info d)
    (hlay : Placeable w.cwd fs (listedFiles info) d info.pieceLength) (hres : Unreserved info)
    (h1 : ASteps w (Beside info) (App.init fs n) A) (hs : s ∈ A.proc.slots) (hi : s.sys.torrent.info = some info)
    (hall : ∀ i, i < pieceCount d.length info.pieceLength → i ∈ s.sys.written.map Ready.idx) (h2 : ASteps w (Beside info) A A') :
    (∃ r, (info, r) ∈ A'.proc.taken ∧ Collision w.sha r.piece (piece d info.pieceLength r.idx)) ∨
    FilesOver fs A'.proc.fs w.cwd (listedFiles info) d ∧ (FilesRight A'.proc.fs w.cwd (listedFiles info) d ↔ NoneLonger fs w.cwd (listedFiles info)) :=
  (C69_over_partial hd hlay hres (proc_steps (ainv_init fs n) h1) hs hi hall (proc_steps (ainv_steps h1 (ainv_init fs n)) h2)).imp_right
    fun h => ⟨h, over_right h⟩

/-- C81 for what was on disk before: a byte of the data that is right when the program starts is never made wrong. -/
theorem C81_kept_partial {w : World} {info : Info} {d : Bytes} {fs : FS} {n : Nat} {A : App} (hd : Describes w.sha info d)
    (hlay : Placeable w.cwd fs (listedFiles info) d info.pieceLength) (hroot : Rooted fs w.cwd (listedFiles info)) (hres : Unreserved info)
    (h : ASteps w (Beside info) (App.init fs n) A) :
    (∃ r, (info, r) ∈ A.proc.taken ∧ Collision w.sha r.piece (piece d info.pieceLength r.idx)) ∨
    ∀ g, g < d.length → diskByte fs w.cwd (listedFiles info) g = d[g]? → diskByte A.proc.fs w.cwd (listedFiles info) g = d[g]? :=
  C75_kept_partial hd hlay hroot hres (proc_steps (ainv_init fs n) h)

end RustBit
