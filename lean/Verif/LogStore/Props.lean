import Verif.LogStore.Keep

/-!
# The raft log storage (C45, C55 - C58)

All theorems are about every history of calls, batches (any pending mutations, in any
order), restarts and machine stops that keeps to `Ok`, for any set of log clients that
contains the raft node.  `run … = some s` says that the process did not abort;
`C55_never_aborts` proves that it does not.
-/

namespace Verif.LogStore
open Verif.Codec

/-! ## Histories for the examples -/

def exA : LogEntry := { typ := typeData, term := 1, data := [7] }
def exB : LogEntry := { typ := typeConf, term := 2, data := [8, 9] }
def exC : LogEntry := { typ := typeData, term := 2, data := [1] }

def exInit : State := State.init [.raft, .vec] true true

/-- Two regions; appends, both clients truncate, a suffix is cut and written again, a restart. -/
def exHist : List Event :=
  [.openRegion 1, .openRegion 2, .append 1 [(1, exA), (2, exA)], .append 2 [(1, exC)], .flush [1, 0],
   .append 1 [(3, exB), (4, exC)], .flush [0], .truncPrefix .vec 1 3, .truncPrefix .raft 1 2, .flush [0],
   .truncSuffix 1 3, .flush [0], .append 1 [(4, exB)], .flush [0], .restart, .openRegion 1, .openRegion 2,
   .append 1 [(5, exC)], .flush [0], .crash 3, .openRegion 1]

/-! ## C55: the log of a node is served exactly -/

/-- **C55**: no history aborts the process. -/
theorem C55_never_aborts (clients : List Client) (sync cacheOn : Bool) (hraft : Client.raft ∈ clients)
    (evs : List Event) (hok : AllOk (State.init clients sync cacheOn) evs) :
    ∃ s, run (State.init clients sync cacheOn) evs = some s := by
  obtain ⟨s, h, _⟩ := (Inv.init clients sync cacheOn hraft).run evs hok
  exact ⟨s, h⟩

/-- **C55**: reads of a region's log depend on the calls of its node alone: every index
of the node's window is served with the entry appended there and its term, nothing is
served after the last index, and a read never returns anything else than what the node
appended at that index. -/
theorem C55_reads_exact (clients : List Client) (sync cacheOn : Bool) (hraft : Client.raft ∈ clients)
    (evs : List Event) (hok : AllOk (State.init clients sync cacheOn) evs) (s : State)
    (hs : run (State.init clients sync cacheOn) evs = some s) (r : Int) (hr : ValidR r) :
    (∀ i, (specLog (s.hist r)).first ≤ i → i ≤ (specLog (s.hist r)).last →
      ∃ e, (specLog (s.hist r)).ent i = some e ∧ getEntry s.db r i = some (some e) ∧ getTerm s.db r i = some e.term)
    ∧ (∀ i, (specLog (s.hist r)).last < i → i < maxI64 → getEntry s.db r i = some none ∧ getTerm s.db r i = some 0)
    ∧ (∀ i, 0 ≤ i → i < maxI64 → ∃ x, getEntry s.db r i = some x ∧ (x = none ∨ x = (specLog (s.hist r)).ent i)) := by
  obtain ⟨s', h, hI⟩ := (Inv.init clients sync cacheOn hraft).run evs hok
  rw [hs] at h
  cases h
  have hR := (hI.reg r hr).spec
  refine ⟨?_, ?_, ?_⟩
  · intro i h1 h2
    obtain ⟨e, he⟩ := hR.win i h1 h2
    exact ⟨e, he, hI.readWindow hr he h1⟩
  · intro i h1 h2
    have a1 := hR.f1
    have a2 := hR.fl
    have a3 : (s.view r).log = specLog (s.hist r) := rfl
    rw [a3] at a1 a2
    rcases hI.read hr (i := i) (by omega) h2 with ⟨e, a, _⟩ | ⟨a, b, _⟩
    · have := (hR.rng i e a).2.1
      rw [a3] at this
      omega
    · exact ⟨a, b⟩
  · intro i h1 h2
    rcases hI.read hr h1 h2 with ⟨e, a, b, _⟩ | ⟨a, _, _⟩
    · exact ⟨some e, b, .inr a.symm⟩
    · exact ⟨none, a, .inl rfl⟩

example : okAllB exInit exHist = true
    ∧ (run exInit exHist).map (fun s => ((specLog (s.hist 1)).first, (specLog (s.hist 1)).last, getTerm s.db 1 5)) = some (2, 5, some 2)
    ∧ (run exInit exHist).map (fun s => (getEntry s.db 1 4, getEntry s.db 1 6, getEntry s.db 2 1))
      = some (some (some exB), some none, some (some exC)) := by
  refine ⟨?_, ?_, ?_⟩ <;> decide +kernel

/-- **C55**: once the batch with an append has been executed (the call returns), each of
its entries reads back exactly as appended, whatever follows - batches, other regions,
truncations by the other client, restarts, machine stops - until the node itself
truncates, resets or destroys that part of its log. -/
theorem C55_acknowledged (clients : List Client) (sync cacheOn : Bool) (hraft : Client.raft ∈ clients)
    (evs1 : List Event) (sel : List Nat) (evs2 : List Event)
    (hok : AllOk (State.init clients sync cacheOn) (evs1 ++ .flush sel :: evs2)) (s1 s2 : State)
    (hs1 : run (State.init clients sync cacheOn) evs1 = some s1)
    (hs2 : run (State.init clients sync cacheOn) (evs1 ++ .flush sel :: evs2) = some s2)
    (r : Int) (es : List (Int × LogEntry)) (hb : InBatch s1 sel (.append r es)) (i : Int) (e : LogEntry) (he : (i, e) ∈ es)
    (hkeep : ∀ ev ∈ evs2, Keeps r i ev) (hhold : ∀ ev ∈ evs2, Holds .raft r i ev) :
    getEntry s2.db r i = some (some e) ∧ getTerm s2.db r i = some e.term := by
  obtain ⟨ok1, ok2⟩ := allOk_append hok
  obtain ⟨s1', h1, hI1⟩ := (Inv.init clients sync cacheOn hraft).run evs1 ok1
  rw [hs1] at h1
  cases h1
  have ok2 := ok2 s1 hs1
  rw [run_append, hs1] at hs2
  simp only [Option.bind_some, run, foldOpt] at hs2
  split at hs2
  · cases hs2
  · rename_i s' hf
    obtain ⟨k1, k2⟩ := Kept.appended hI1 hb hf he
    obtain ⟨s'', hf', hI'⟩ := hI1.step ok2.1
    rw [hf] at hf'
    cases hf'
    have hr : ValidR r := hI1.pendR _ ((pick_perm sel s1.pending).mem_iff.1 (List.mem_append_left _ hb))
    obtain ⟨k3, k4⟩ := k1.run hr hI' evs2 (ok2.2 s' hf) hkeep hs2
    obtain ⟨s3, h3, hI2⟩ := hI'.run evs2 (ok2.2 s' hf)
    rw [run, hs2] at h3
    cases h3
    exact hI2.readWindow hr k3.ent (k4 hhold k2)

/-- The hypotheses of `C55_acknowledged` meet: entry 3 of region 1 in `exHist`. -/
example : (run exInit (exHist.take 6)).map (fun s => decide (Mutation.append 1 [(3, exB), (4, exC)] ∈ (pick s.pending [0]).1)) = some true
    ∧ (run exInit exHist).map (fun s => getEntry s.db 1 3) = some (some (some exB)) := by decide +kernel

/-- **C55**, where it fails: with `raft_sync` off, an acknowledged append is gone after
the machine stops. -/
theorem C55_sync_false :
    ∃ evs s s', run (State.init [.raft] false true) evs = some s ∧ getEntry s.db 1 1 = some (some exA) ∧ s.pending = []
      ∧ run s [.crash 1, .openRegion 1] = some s' ∧ getEntry s'.db 1 1 = some none := by
  refine ⟨[.openRegion 1, .append 1 [(1, exA)], .flush [0]], _, _, rfl, ?_, ?_, rfl, ?_⟩ <;> decide +kernel

/-- **C55**, where it fails: an entry with empty data is accepted and aborts every later
read of it, and the next start of the region. -/
theorem C55_empty_false :
    ∃ evs s, run (State.init [.raft] true true) evs = some s ∧ getEntry s.db 1 1 = none
      ∧ (run s [.restart, .openRegion 1]).isNone = true := by
  refine ⟨[.openRegion 1, .append 1 [(1, { typ := typeData, term := 1, data := [] })], .flush [0]], _, rfl, ?_, ?_⟩ <;>
    decide +kernel

/-- **C55**, where it fails: `DeleteRegionTask` destroys the region's log before it stops
the region's vector index (`store/region_controller.cc:282` and below); a truncation by
the vector index in between aborts the process. -/
theorem C55_destroy_false :
    (run (State.init [.raft, .vec] true true)
      [.openRegion 1, .append 1 [(1, exA), (2, exA)], .flush [0], .destroy 1, .flush [0], .truncPrefix .vec 1 2]).isNone = true := by
  decide +kernel

/-! ## C45: the term cache -/

/-- **C45**: with the term cache on, the term of every index of the node's window is the
term appended there - the same as without the cache - whatever the sequence of appends,
truncations of both ends, resets and restarts. -/
theorem C45_cached_term_exact (clients : List Client) (sync : Bool) (hraft : Client.raft ∈ clients)
    (evs : List Event) (hok : AllOk (State.init clients sync true) evs) (s : State)
    (hs : run (State.init clients sync true) evs = some s) (r : Int) (hr : ValidR r) (hopen : s.cache r ≠ none)
    (i : Int) (h1 : (specLog (s.hist r)).first ≤ i) (h2 : i ≤ (specLog (s.hist r)).last) :
    ∃ e, (specLog (s.hist r)).ent i = some e ∧ s.getTermCached r i = some e.term ∧ getTerm s.db r i = some e.term := by
  obtain ⟨s', h, hI⟩ := (Inv.init clients sync true hraft).run evs hok
  rw [hs] at h
  cases h
  have hR := hI.reg r hr
  obtain ⟨e, he⟩ := hR.spec.win i h1 h2
  refine ⟨e, he, ?_, (hI.readWindow hr he h1).2⟩
  cases hc : s.cache r with
  | none => exact absurd hc hopen
  | some l =>
    have hca := (hR.ca l hc).2 ((clients_run evs hs).2.1)
    simp only [State.getTermCached, hc, Option.map_some]
    rw [getTerm_eq hca.asc, hca.look i e h1 he]
    rfl

example : okAllB exInit exHist = true
    ∧ (run exInit exHist).map (fun s => [2, 3, 4, 5].map (s.getTermCached 1)) = some [some 1, some 2, some 2, some 2] := by
  decide +kernel

/-- **C45**, where it fails: for an index after the last one the cache answers with the
last term, not with 0 (no entry) as the log itself does. -/
theorem C45_false :
    ∃ evs s, AllOk exInit evs ∧ run exInit evs = some s ∧ getEntry s.db 1 9 = some none ∧ getTerm s.db 1 9 = some 0
      ∧ s.getTermCached 1 9 = some 1 := by
  refine ⟨[.openRegion 1, .append 1 [(1, exA)], .flush [0]], _, okAllB_sound (by decide +kernel), rfl, ?_, ?_, ?_⟩ <;>
    decide +kernel

/-! ## C56: an entry is kept until every client released it -/

/-- **C56**: an entry whose append was acknowledged, and which its node did not cut off
at the end, stays readable as long as one of the registered clients did not release it,
that is, never called `TruncatePrefix` with a greater index. -/
theorem C56_retained (clients : List Client) (sync cacheOn : Bool) (hraft : Client.raft ∈ clients)
    (evs1 : List Event) (sel : List Nat) (evs2 : List Event)
    (hok : AllOk (State.init clients sync cacheOn) (evs1 ++ .flush sel :: evs2)) (s1 s2 : State)
    (hs1 : run (State.init clients sync cacheOn) evs1 = some s1)
    (hs2 : run (State.init clients sync cacheOn) (evs1 ++ .flush sel :: evs2) = some s2)
    (r : Int) (es : List (Int × LogEntry)) (hb : InBatch s1 sel (.append r es)) (i : Int) (e : LogEntry) (he : (i, e) ∈ es)
    (hkeep : ∀ ev ∈ evs2, Keeps r i ev) (c : Client) (hc : c ∈ clients)
    (hhold : ∀ ev ∈ evs1 ++ .flush sel :: evs2, Holds c r i ev) :
    getEntry s2.db r i = some (some e) ∧ getTerm s2.db r i = some e.term := by
  have hrun2 := hs2
  obtain ⟨ok1, ok2⟩ := allOk_append hok
  obtain ⟨s1', h1, hI1⟩ := (Inv.init clients sync cacheOn hraft).run evs1 ok1
  rw [hs1] at h1
  cases h1
  have ok2 := ok2 s1 hs1
  rw [run_append, hs1] at hs2
  simp only [Option.bind_some, run, foldOpt] at hs2
  split at hs2
  · cases hs2
  · rename_i s' hf
    obtain ⟨k1, k2⟩ := Kept.appended hI1 hb hf he
    obtain ⟨s'', hf', hI'⟩ := hI1.step ok2.1
    rw [hf] at hf'
    cases hf'
    have hr : ValidR r := hI1.pendR _ ((pick_perm sel s1.pending).mem_iff.1 (List.mem_append_left _ hb))
    obtain ⟨k3, _⟩ := k1.run hr hI' evs2 (ok2.2 s' hf) hkeep hs2
    obtain ⟨s3, h3, hI2⟩ := hI'.run evs2 (ok2.2 s' hf)
    rw [run, hs2] at h3
    cases h3
    have hv := validI_of_ent (hI2.reg r hr).spec k3.ent
    rcases hI2.read hr hv.1.1 hv.2.1 with ⟨e', a, b⟩ | ⟨_, _, b⟩
    · have := k3.ent
      rw [a] at this
      cases this
      exact b
    · obtain ⟨k, q1, q2⟩ := b e k3.ent c (by rw [(clients_run _ hrun2).1]; exact hc)
      rcases released_run _ hrun2 r c k q1 with q | q
      · cases q
      · have := hhold _ q rfl rfl
        omega

/-- The hypotheses of `C56_retained` meet: the node releases up to 4, the vector index
only up to 2; entry 2 stays. -/
example :
    let evs1 : List Event := [.openRegion 1, .append 1 [(1, exA), (2, exA), (3, exA), (4, exC)]]
    let evs2 : List Event := [.truncPrefix .raft 1 4, .truncPrefix .vec 1 2, .flush [0], .restart, .openRegion 1]
    okAllB exInit (evs1 ++ .flush [0] :: evs2) = true
    ∧ (run exInit evs1).map (fun s => decide (Mutation.append 1 [(1, exA), (2, exA), (3, exA), (4, exC)] ∈ (pick s.pending [0]).1)) = some true
    ∧ (run exInit (evs1 ++ .flush [0] :: evs2)).map (fun s => (getEntry s.db 1 1, getEntry s.db 1 2)) = some (some none, some (some exA)) := by
  decide +kernel

/-- **C56**, where it fails: a hold that follows a release is ignored.  A vector index
that releases everything when it is unloaded (`TruncatePrefix(…, INT64_MAX)`,
`handler/raft_vote_handler.cc:99`) and forbids truncation when it is loaded again
(`TruncatePrefix(…, 0)`, lines 57 and 110) loses the entries after that hold. -/
theorem C56_false :
    ∃ evs1 evs2 s, AllOk exInit (evs1 ++ .truncPrefix .vec 1 0 :: evs2)
      ∧ (∀ ev ∈ evs2, Holds .vec 1 1 ev ∧ Keeps 1 1 ev)
      ∧ (run exInit evs1).map (fun s => getEntry s.db 1 1) = some (some (some exA))
      ∧ run exInit (evs1 ++ .truncPrefix .vec 1 0 :: evs2) = some s ∧ getEntry s.db 1 1 = some none := by
  refine ⟨[.openRegion 1, .append 1 [(1, exA), (2, exA), (3, exA)], .flush [0], .truncPrefix .vec 1 maxI64],
    [.truncPrefix .raft 1 3, .flush [0]], _, okAllB_sound (by decide +kernel), ?_, ?_, rfl, ?_⟩
  · intro ev hev
    simp only [List.mem_cons, List.not_mem_nil, or_false] at hev
    rcases hev with rfl | rfl
    · exact ⟨(fun h => by cases h), trivial⟩
    · exact ⟨trivial, trivial⟩
  · decide +kernel
  · decide +kernel

/-! ## C57: the reported window -/

/-- **C57** (partial: the appends continue the log *the storage* reports, `AllNext`; see
`C57_hole_false`): the indexes between the reported first and last one are exactly those
that can be read. -/
theorem C57_window_partial (clients : List Client) (sync cacheOn : Bool) (hraft : Client.raft ∈ clients)
    (evs : List Event) (hok : AllOk (State.init clients sync cacheOn) evs) (hn : AllNext (State.init clients sync cacheOn) evs)
    (s : State) (hs : run (State.init clients sync cacheOn) evs = some s) (r : Int) (m : Meta) (hm : s.metas r = some m) :
    1 ≤ m.first ∧ m.first ≤ m.last + 1
    ∧ ∀ i, 0 ≤ i → i < maxI64 → ((∃ e, getEntry s.db r i = some (some e)) ↔ m.first ≤ i ∧ i ≤ m.last) := by
  obtain ⟨s', h, hI⟩ := (Inv.init clients sync cacheOn hraft).run evs hok
  rw [hs] at h
  cases h
  have hr := hI.known r (by rw [hm]; simp)
  have w := (WInv.run (Inv.init clients sync cacheOn hraft) (WInv.init clients sync cacheOn) evs hok hn hs r m hr hm).1
  refine ⟨w.f1, w.fl, ?_⟩
  intro i h0 hi
  rw [← w.win i, cells_get h0 hi]
  rcases hI.get hr h0 hi with ⟨e, _, b, c⟩ | ⟨b, _⟩
  · rw [(getEntry_some b c).1, b]
    exact ⟨fun _ => by simp, fun _ => ⟨e, rfl⟩⟩
  · rw [(getEntry_none b).1, b]
    exact ⟨fun ⟨e, he⟩ => (by cases he), fun hx => absurd rfl hx⟩

example : okAllB exInit exHist = true ∧ nextAllB exInit exHist = true
    ∧ (run exInit exHist).bind (fun s => (s.metas 1).map (fun m => (m.first, m.last))) = some (2, 5) := by decide +kernel

/-- **C57**, where it fails: a snapshot beyond the end of the log (`truncate_prefix(10)`
on a log that ends at 2) is not applied while another client holds the log; the next
append leaves a hole inside the reported window. -/
theorem C57_hole_false :
    ∃ evs s m, AllOk exInit evs ∧ run exInit evs = some s ∧ s.metas 1 = some m
      ∧ m.first ≤ 5 ∧ 5 ≤ m.last ∧ getEntry s.db 1 5 = some none := by
  refine ⟨[.openRegion 1, .append 1 [(1, exA), (2, exA)], .flush [0], .truncPrefix .raft 1 10, .append 1 [(10, exB)], .flush [0]],
    _, { first := 1, last := 10, keeps := [(.raft, 10), (.vec, 0)] }, okAllB_sound (by decide +kernel), rfl, ?_, ?_, ?_, ?_⟩ <;>
    decide +kernel

/-- **C57**, where it fails: after `reset(10)` the log is empty and starts at 10; after a
restart it is reported to start at 1. -/
theorem C57_empty_false :
    ∃ evs s s' m m', AllOk exInit evs ∧ run exInit evs = some s ∧ s.metas 1 = some m ∧ m.first = 10 ∧ m.last = 9
      ∧ run s [.restart, .openRegion 1] = some s' ∧ s'.metas 1 = some m' ∧ m'.first = 1 ∧ m'.last = 0 := by
  refine ⟨[.openRegion 1, .append 1 [(1, exA)], .flush [0], .reset 1 10, .flush [0]], _, _,
    { first := 10, last := 9, keeps := [(.raft, 0), (.vec, 0)] }, { first := 1, last := 0, keeps := [(.raft, 0), (.vec, 0)] },
    okAllB_sound (by decide +kernel), rfl, ?_, rfl, rfl, rfl, ?_, rfl, rfl⟩ <;> decide +kernel

/-! ## C58: reading a range -/

/-- **C58**: `GetEntries` returns exactly the readable entries of the range, in order;
`GetDataEntries` those of them that carry data; `GetConfigurations` all configuration
entries of the region. -/
theorem C58_ranges (clients : List Client) (sync cacheOn : Bool) (hraft : Client.raft ∈ clients)
    (evs : List Event) (hok : AllOk (State.init clients sync cacheOn) evs) (s : State)
    (hs : run (State.init clients sync cacheOn) evs = some s) (r : Int) (hr : ValidR r)
    (a b : Int) (ha : 0 ≤ a) (ha' : a ≤ maxI64) (hb : 0 ≤ b) (hb' : b ≤ maxI64) :
    ∃ all data conf, getEntries s.db r a b = some all ∧ getDataEntries s.db r a b = some data ∧ getConfigurations s.db r = some conf
      ∧ all.Pairwise (fun x y => x.1 < y.1) ∧ data.Pairwise (fun x y => x.1 < y.1) ∧ conf.Pairwise (fun x y => x.1 < y.1)
      ∧ (∀ i e, (i, e) ∈ all ↔ a ≤ i ∧ i < b ∧ getEntry s.db r i = some (some e))
      ∧ (∀ i e, (i, e) ∈ data ↔ a ≤ i ∧ i < b ∧ getEntry s.db r i = some (some e) ∧ e.typ = 2)
      ∧ (∀ i e, (i, e) ∈ conf ↔ 0 ≤ i ∧ i < maxI64 ∧ getEntry s.db r i = some (some e) ∧ e.typ = 3) := by
  obtain ⟨s', h, hI⟩ := (Inv.init clients sync cacheOn hraft).run evs hok
  rw [hs] at h
  cases h
  have key : ∀ a b : Int, 0 ≤ a → a ≤ maxI64 → 0 ≤ b → b ≤ maxI64 → ∃ l, getEntries s.db r a b = some l
      ∧ l.Pairwise (fun x y => x.1 < y.1) ∧ ∀ i e, (i, e) ∈ l ↔ a ≤ i ∧ i < b ∧ getEntry s.db r i = some (some e) := by
    intro a b ha ha' hb hb'
    obtain ⟨ps, g1, g2, g3⟩ := getEntries_spec hI.dbOk hI.specOk hr (validI_le ha ha') (validI_le hb hb')
    refine ⟨ps, g1, g2, ?_⟩
    intro i e
    rw [g3]
    constructor
    · rintro ⟨x1, x2, x3, x4⟩
      exact ⟨x1, x2, (getEntry_some x4 ((hI.reg r hr).spec.rng i e x3).2.2).1⟩
    · rintro ⟨x1, x2, x3⟩
      refine ⟨x1, x2, ?_⟩
      rcases hI.get hr (i := i) (by omega) (by omega) with ⟨e', y1, y2, y3⟩ | ⟨y1, _⟩
      · rw [(getEntry_some y2 y3).1] at x3
        cases x3
        exact ⟨y1, y2⟩
      · rw [(getEntry_none y1).1] at x3
        cases x3
  obtain ⟨l, l1, l2, l3⟩ := key a b ha ha' hb hb'
  obtain ⟨c, c1, c2, c3⟩ := key 0 maxI64 (Int.le_refl 0) (by simp [maxI64]) (by simp [maxI64]) (Int.le_refl _)
  refine ⟨l, l.filter (fun e => decide (e.2.typ = typeData)), c.filter (fun e => decide (e.2.typ = typeConf)), l1,
    by rw [getDataEntries, l1]; rfl, by rw [getConfigurations, c1]; rfl, l2, l2.filter _, c2.filter _, l3, ?_, ?_⟩
  · intro i e
    rw [List.mem_filter, l3, decide_eq_true_eq]
    exact ⟨fun ⟨⟨x, y, z⟩, w⟩ => ⟨x, y, z, w⟩, fun ⟨x, y, z, w⟩ => ⟨⟨x, y, z⟩, w⟩⟩
  · intro i e
    rw [List.mem_filter, c3, decide_eq_true_eq]
    exact ⟨fun ⟨⟨x, y, z⟩, w⟩ => ⟨x, y, z, w⟩, fun ⟨x, y, z, w⟩ => ⟨⟨x, y, z⟩, w⟩⟩

example : okAllB exInit exHist = true
    ∧ (run exInit exHist).bind (fun s => getEntries s.db 1 3 5) = some [(3, exB), (4, exB)]
    ∧ (run exInit exHist).bind (fun s => getDataEntries s.db 1 0 9) = some [(2, exA), (5, exC)]
    ∧ (run exInit exHist).bind (fun s => getConfigurations s.db 1) = some [(3, exB), (4, exB)] := by
  refine ⟨?_, ?_, ?_, ?_⟩ <;> decide +kernel

end Verif.LogStore
