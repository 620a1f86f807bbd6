import Verif.MemLock.Seen
import Verif.MemLock.Cover

/-!
C19 (async-commit and one-phase commits land above every read served without them), C62 (memory
locks are only in the way while their prewrite is under way) and C63 (a lock on disk is only touched
for the transaction that holds it).
-/

namespace Verif.MemLock

/-! ## Sample requests -/

def kA : Key := [1]
def kB : Key := [2]

/-- A one-phase prewrite of two keys by transaction 5. -/
def onePc5 : Req := ⟨.store, 5, [⟨kA, .put, false, none⟩, ⟨kB, .delete, false, none⟩], true, false, 0, 0⟩

/-- An async-commit prewrite by transaction 7. -/
def async7 : Req := ⟨.store, 7, [⟨kA, .put, false, none⟩], false, true, 0, 0⟩

/-- A read of key A at 10, served while a one-phase prewrite waits for its entry; then a read at 30
that meets the memory lock of an async-commit prewrite, one at 12 that reads below it, and the commit
of it. -/
def raceEvs : List Ev :=
  [.begin 10 (· == kA) [], .prewrite onePc5, .next 0, .raise 0, .look 0, .fix 0, .check 0 true,
   .serve 0 (fun _ => true), .next 0, .fix 0, .send 0, .apply 0, .finish 0,
   .prewrite async7, .begin 12 (fun _ => true) [], .raise 1, .look 1, .serve 1 (fun _ => true),
   .next 1, .fix 1, .begin 30 (fun _ => true) [], .raise 2, .look 2, .check 2 true,
   .send 1, .apply 1, .finish 1, .commit kA 7 13]

/-! ## C19 -/

/-- **C19**, for requests of the store service, pessimistic mutations that carry the `for_update_ts`
of their lock, leaders that have seen a timestamp as late as every read served before them, and
splits and merges that hand over one as late as every read under way: a record whose commit
timestamp was picked by the store, on a key that a read was served for, was seen by the read, or
lies above the read, or belongs to a transaction the read was told to ignore. Missing: leaders,
splits and merges that do not (`C19_leader_false`, `C19_split_false`, `C19_merge_false`),
pessimistic mutations without the check (`C19_for_update_false`), and the prewrites of vector and
document regions (`C19_index_false`). -/
theorem C19_commit_above_reads_partial {evs : List Ev} (hok : okRun init evs = true)
    {r : Reader} {got : Key → Bool} {snap : List Rec} (hr : r ∈ (run init evs).readers)
    (hs : r.phase = .served got snap) {w : Rec} (hw : w ∈ (run init evs).writes)
    (hc : w.chosen = true) (hk : r.sel w.key = true) (hg : got w.key = true)
    (hres : w.start ∉ r.resolved) : w ∈ snap ∨ r.ts < w.commit := by
  rcases ((run_inv init_inv hok).recs r hr got snap hs).2 w hw hc hk hg with h | h | h
  · exact Or.inl h
  · exact Or.inr h
  · exact absurd h hres

/-- What a read at its timestamp was shown of such transactions is what a later look at the same
timestamp shows: the records at or below it are the same. -/
theorem C19_repeat_partial {evs : List Ev} (hok : okRun init evs = true)
    {r : Reader} {got : Key → Bool} {snap : List Rec} (hr : r ∈ (run init evs).readers)
    (hs : r.phase = .served got snap) {w : Rec}
    (hc : w.chosen = true) (hk : r.sel w.key = true) (hg : got w.key = true)
    (hres : w.start ∉ r.resolved) (hle : w.commit ≤ r.ts) :
    w ∈ snap ↔ w ∈ (run init evs).writes := by
  constructor
  · exact ((run_inv init_inv hok).recs r hr got snap hs).1 w
  · intro hw
    rcases C19_commit_above_reads_partial hok hr hs hw hc hk hg hres with h | h
    · exact h
    · omega

/-- An async-commit lock found on disk demands a commit timestamp above every read of its key that
was served, and above its own `lock_ts` and `for_update_ts`. -/
theorem C19_lock_above_reads_partial {evs : List Ev} (hok : okRun init evs = true)
    {k : Key} {l : Lock} (hl : (k, l) ∈ (run init evs).locks) (ha : l.async = true) :
    l.ts < l.min ∧ l.fut < l.min ∧
    ∀ r ∈ (run init evs).readers, ∀ got snap, r.phase = .served got snap → r.sel k = true →
      got k = true → l.ts ∉ r.resolved → r.ts < l.min := by
  obtain ⟨_, ⟨_, h2, h3⟩, h4⟩ := (run_inv init_inv hok).locks k l hl ha
  refine ⟨h2, h3, ?_⟩
  intro r hr got snap hs hk hg hres
  rcases h4 r hr got snap hs hk hg with h | h
  · exact h
  · exact absurd h hres

def servedAt (s : Sys) (ts : Int) : Bool :=
  s.readers.any (fun r => r.ts = ts && match r.phase with | .served _ _ => true | _ => false)

def memoryAt (s : Sys) (ts : Int) : Bool :=
  s.readers.any (fun r => r.ts = ts && match r.phase with | .memory _ => true | _ => false)

/-- In the sample race the reads at 10 and 12 are served and the one at 30 is refused for a memory
lock; the one-phase commit lands at 11 and the async commit at 13. -/
example : okRun init raceEvs = true ∧ servedAt (run init raceEvs) 10 = true ∧
    servedAt (run init raceEvs) 12 = true ∧ memoryAt (run init raceEvs) 30 = true ∧
    (run init raceEvs).writes = [⟨kB, 11, 5, true⟩, ⟨kA, 11, 5, true⟩, ⟨kA, 13, 7, true⟩] := by
  decide +kernel

/-- With the commit not yet made, the lock on disk is there to speak about. -/
example : (kA, (⟨7, 0, 13, true, false⟩ : Lock)) ∈ (run init (raceEvs.take 26)).locks := by
  decide +kernel

/-- A read whose answer misses a record the store put at or below it. -/
def missed (s : Sys) : Bool :=
  s.readers.any (fun r => match r.phase with
    | .served got snap => s.writes.any (fun w =>
        w.chosen && r.sel w.key && got w.key && !r.resolved.contains w.start &&
        decide (w.commit ≤ r.ts) && !snap.contains w)
    | _ => false)

/-- What `missed` says: the conclusion of C19 fails. -/
theorem missed_spec {s : Sys} (h : missed s = true) :
    ∃ r ∈ s.readers, ∃ got snap, r.phase = .served got snap ∧ ∃ w ∈ s.writes, w.chosen = true ∧
      r.sel w.key = true ∧ got w.key = true ∧ w.start ∉ r.resolved ∧ w.commit ≤ r.ts ∧
      w ∉ snap := by
  obtain ⟨r, hr, h⟩ := List.any_eq_true.1 h
  refine ⟨r, hr, ?_⟩
  split at h
  · rename_i got snap hp
    obtain ⟨w, hw, h⟩ := List.any_eq_true.1 h
    simp at h
    exact ⟨got, snap, hp, w, hw, by grind⟩
  · cases h

/-- A read at 10 is served by one leader; another node takes over, whose maximum is still 0; a
one-phase commit of transaction 5 lands at 6. -/
def leaderEvs : List Ev :=
  [.begin 10 (· == kA) [], .raise 0, .look 0, .serve 0 (fun _ => true), .lead 1,
   .prewrite onePc5, .next 0, .fix 0, .next 0, .fix 0, .send 0, .apply 0, .finish 0]

/-- C19 fails across a change of leader: the maximum lives in memory and starts at 0. -/
theorem C19_leader_false : ∃ evs, storeOnly evs = true ∧
    ∃ r ∈ (run init evs).readers, ∃ got snap, r.phase = .served got snap ∧
    ∃ w ∈ (run init evs).writes, w.chosen = true ∧ r.sel w.key = true ∧ got w.key = true ∧
      w.start ∉ r.resolved ∧ w.commit ≤ r.ts ∧ w ∉ snap := by
  refine ⟨leaderEvs, by decide, missed_spec ?_⟩
  decide +kernel

/-- A split copies the maximum to the child; a read at 10 then raises that of the parent and is
validated, and goes on while the epochs change; a one-phase commit in the child lands at 6. -/
def splitEvs : List Ev :=
  [.begin 10 (· == kA) [], .copy 0 1, .raise 0, .look 0, .move 1, .serve 0 (fun _ => true),
   .prewrite onePc5, .next 0, .fix 0, .next 0, .fix 0, .send 0, .apply 0, .finish 0]

/-- C19 fails across a split under one leader: a region that is splitting still takes reads, and the
maximum is copied before the epoch changes. -/
theorem C19_split_false : ∃ pre post, storeOnly (pre ++ post) = true ∧
    (∀ n, Ev.lead n ∉ pre ++ post) ∧ Ev.copy 0 1 ∈ pre ∧ Ev.move 1 ∈ post ∧
    ∃ r ∈ (run init (pre ++ post)).readers, ∃ got snap, r.phase = .served got snap ∧
    ∃ w ∈ (run init (pre ++ post)).writes, w.chosen = true ∧ r.sel w.key = true ∧
      got w.key = true ∧ w.start ∉ r.resolved ∧ w.commit ≤ r.ts ∧ w ∉ snap := by
  refine ⟨splitEvs.take 3, splitEvs.drop 3, by decide, by simp [splitEvs], by simp [splitEvs],
    by simp [splitEvs], missed_spec ?_⟩
  decide +kernel

/-- A merge: a read at 10 is served by the source, the keys move to the target, a one-phase commit
there lands at 6, and only then is the maximum of the source handed over. -/
def mergeEvs : List Ev :=
  [.begin 10 (· == kA) [], .raise 0, .look 0, .serve 0 (fun _ => true), .move 1,
   .prewrite onePc5, .next 0, .fix 0, .next 0, .fix 0, .copy 0 1, .send 0, .apply 0, .finish 0]

/-- C19 fails across a merge under one leader, also for reads served before it: the target's range
and epoch are updated before its maximum. -/
theorem C19_merge_false : ∃ pre post, storeOnly (pre ++ post) = true ∧
    (∀ n, Ev.lead n ∉ pre ++ post) ∧ Ev.move 1 ∉ pre ∧ Ev.copy 0 1 ∈ post ∧
    (∃ r ∈ (run init pre).readers, ∃ got snap, r.phase = .served got snap) ∧
    ∃ r ∈ (run init (pre ++ post)).readers, ∃ got snap, r.phase = .served got snap ∧
    ∃ w ∈ (run init (pre ++ post)).writes, w.chosen = true ∧ r.sel w.key = true ∧
      got w.key = true ∧ w.start ∉ r.resolved ∧ w.commit ≤ r.ts ∧ w ∉ snap := by
  refine ⟨mergeEvs.take 4, mergeEvs.drop 4, by decide, by simp [mergeEvs], by simp [mergeEvs],
    by simp [mergeEvs], ?_, missed_spec ?_⟩
  · refine ⟨_, List.mem_singleton.2 rfl, _, _, rfl⟩
  decide +kernel

/-- A run in which the reads start before the copy meets the hypotheses of the theorems above. -/
example : okRun init ([.begin 10 (· == kA) [], .raise 0, .look 0, .copy 0 1, .move 1,
    .serve 0 (fun _ => true), .prewrite onePc5, .next 0, .fix 0, .next 0, .fix 0, .send 0,
    .apply 0, .finish 0] : List Ev) = true := by
  decide +kernel

/-- Transaction 5 locks A for update at 20; its one-phase prewrite comes without the check and gets
6; a read at 10 passes the memory lock and the lock on disk, both of which carry 20. -/
def futEvs : List Ev :=
  [.plock kA 5 20, .prewrite ⟨.store, 5, [⟨kA, .put, true, none⟩], true, false, 0, 0⟩, .next 0, .fix 0,
   .begin 10 (· == kA) [], .raise 0, .look 0, .check 0 true, .serve 0 (fun _ => true),
   .send 0, .apply 0, .finish 0]

/-- C19 fails under one leader when a pessimistic mutation comes without its `for_update_ts` check:
the timestamp is picked without the `for_update_ts` that readers go by. -/
theorem C19_for_update_false : ∃ evs, storeOnly evs = true ∧ (∀ n, Ev.lead n ∉ evs) ∧
    ∃ r ∈ (run init evs).readers, ∃ got snap, r.phase = .served got snap ∧
    ∃ w ∈ (run init evs).writes, w.chosen = true ∧ r.sel w.key = true ∧ got w.key = true ∧
      w.start ∉ r.resolved ∧ w.commit ≤ r.ts ∧ w ∉ snap := by
  refine ⟨futEvs, by decide, by simp [futEvs], missed_spec ?_⟩
  decide +kernel

/-- Transaction 5 puts a vector in one phase and has picked 6; a read at 10 raises the maximum;
transaction 7 deletes the same vector, under another latch, and its memory lock, for 11, replaces
that of 5; the read finds only that one. -/
def indexEvs : List Ev :=
  [.prewrite ⟨.index, 5, [⟨kA, .put, false, none⟩], true, false, 0, 0⟩, .next 0, .fix 0,
   .begin 10 (· == kA) [], .raise 0,
   .prewrite ⟨.index, 7, [⟨kA, .delete, false, none⟩], true, false, 0, 0⟩, .next 1, .fix 1,
   .look 0, .check 0 true, .serve 0 (fun _ => true), .send 0, .apply 0]

/-- C19 fails in vector and document regions under one leader, without pessimistic locks: the
latches of two prewrites of one key may differ. -/
theorem C19_index_false : ∃ evs, (∀ n, Ev.lead n ∉ evs) ∧
    (∀ r, Ev.prewrite r ∈ evs → ∀ m ∈ r.muts, m.pess = false) ∧
    ∃ r ∈ (run init evs).readers, ∃ got snap, r.phase = .served got snap ∧
    ∃ w ∈ (run init evs).writes, w.chosen = true ∧ r.sel w.key = true ∧ got w.key = true ∧
      w.start ∉ r.resolved ∧ w.commit ≤ r.ts ∧ w ∉ snap := by
  refine ⟨indexEvs, by simp [indexEvs], ?_, missed_spec ?_⟩
  · intro r hr
    simp [indexEvs] at hr
    rcases hr with rfl | rfl <;> decide
  · decide +kernel

/-! ## C66 -/

/-- **C66**, for every run: a one-phase commit writes one record for every key it is to change, no
others, all with one commit timestamp, which lies above the start timestamp and is not below the
`min_commit_ts` asked for. -/
theorem C66_one_timestamp {evs : List Ev} {i : Nat} {p : Pw} (hp : (run init evs).pws[i]? = some p)
    (hs : p.phase = .sent) (ho : p.onePc = true) :
    ∃ rs c, (run init (evs ++ [.apply i])).writes = (run init evs).writes ++ rs ∧
      (∀ w ∈ rs, w.commit = c ∧ w.start = p.req.start ∧ p.req.start < c ∧ p.req.min ≤ c) ∧
      (rs.map Rec.key).Nodup ∧
      ∀ k, k ∈ rs.map Rec.key ↔ ∃ m ∈ p.req.muts, m.op ≠ .check ∧ m.key = k := by
  have hc := run_cov (s := init) (by intro p hp; cases hp) evs p (List.mem_of_getElem? hp)
  have hrun : run init (evs ++ [.apply i]) = step (run init evs) (.apply i) := by
    unfold run; rw [List.foldl_append]; rfl
  refine ⟨onePcRecs p, p.final, ?_, ?_, ?_, ?_⟩
  · rw [hrun]
    simp only [step, hp, pwStep, hs, Verif.MemLock.apply, ho, if_true]
  · intro w hw
    obtain ⟨d, hd, rfl⟩ := List.mem_map.1 hw
    obtain ⟨h1, h2, _⟩ := hc.fin ho d hd
    exact ⟨rfl, rfl, h1, h2⟩
  · unfold onePcRecs
    rw [List.map_map]
    exact hc.nodup
  · intro k
    unfold onePcRecs
    rw [List.map_map, List.mem_map]
    constructor
    · rintro ⟨d, hd, rfl⟩
      exact hc.done d hd
    · rintro ⟨m, hm, hop, rfl⟩
      obtain ⟨h1, h2⟩ := hc.sent hs
      rcases hc.all (.inr hs) ho m hm hop with e | ⟨_, _, _, e, _⟩ | ⟨d, hd, hk⟩
      · rw [h2] at e; cases e
      · rw [h1] at e; cases e
      · exact ⟨d, hd, hk⟩

/-- In the sample race, the prewrite of transaction 5 is sent as a one-phase commit. -/
example : ((run init (raceEvs.take 11)).pws[0]?.map
    (fun p => (decide (p.phase = .sent), p.onePc, p.final))) = some (true, true, 11) := by
  decide +kernel

/-- **C66**, in part: if the request's own bounds fit together, and nodes that took over had seen a
timestamp as late as every lock was pushed to, then neither a one-phase commit nor the async-commit
locks of the prewrite lie above its `max_commit_ts`.  Missing: other changes of leader, see
`C66_max_false`. -/
theorem C66_max_partial {evs : List Ev} (hok : seenRun init evs = true) {p : Pw}
    (hp : p ∈ (run init evs).pws) (hB : 0 < p.req.max) (hmin : p.req.min ≤ p.req.max)
    (hst : p.req.start < p.req.max) :
    (p.onePc = true → p.final ≤ p.req.max) ∧
    ∀ d ∈ p.done, d.lock.async = true → d.lock.min ≤ p.req.max := by
  obtain ⟨M, h⟩ := run_lim (s := init) ⟨fun _ _ h => (by cases h), fun _ h => (by cases h)⟩ hok p hp
  exact h.lim hB hmin hst

/-- Transaction 5 locks key A, the lock is pushed to 15, a new leader that has seen 15 takes over; the
prewrite is committed at 16, with a bound of 20.  One with a bound of 15 falls back to an ordinary
prewrite. -/
def boundEvs (b : Int) : List Ev :=
  [.plock kA 5 5, .push kA 5 15, .touch 1 15, .lead 1,
   .prewrite ⟨.store, 5, [⟨kA, .put, true, some 5⟩], true, false, 0, b⟩, .next 0, .fix 0, .send 0,
   .apply 0]

example : seenRun init (boundEvs 20) = true ∧ (run init (boundEvs 20)).writes = [⟨kA, 16, 5, true⟩] ∧
    seenRun init (boundEvs 15) = true ∧ (run init (boundEvs 15)).writes = [] ∧
    (run init (boundEvs 15)).locks = [(kA, ⟨5, 5, 15, false, false⟩)] := by decide +kernel

/-- Transaction 5 locks key A, a reader at 50 pushes the lock, another node becomes the leader, and the
prewrite follows. -/
def pushEvs : List Ev :=
  [.plock kA 5 5, .push kA 5 50, .lead 1,
   .prewrite ⟨.store, 5, [⟨kA, .put, true, some 5⟩], true, false, 0, 20⟩, .next 0, .fix 0, .send 0,
   .apply 0]

/-- C66 fails for pessimistic transactions whose lock was pushed before a change of leader: the request
allows commit timestamps up to 20 and is committed at 50.  What is compared with `max_commit_ts`
leaves out the `min_commit_ts` of the lock (txn_engine_helper.cc:2192-2193). -/
theorem C66_max_false : ∃ evs, okRun init evs = true ∧ ∃ p ∈ (run init evs).pws, p.req.max = 20 ∧
    p.req.min ≤ p.req.max ∧ p.req.start < p.req.max ∧
    ∃ w ∈ (run init evs).writes, w.start = p.req.start ∧ p.req.max < w.commit :=
  ⟨pushEvs, by decide +kernel, (run init pushEvs).pws[0]'(by decide +kernel), List.getElem_mem _,
    by decide +kernel, by decide +kernel, by decide +kernel,
    ⟨kA, 50, 5, true⟩, by decide +kernel, by decide +kernel, by decide +kernel⟩

/-! ## C62 -/

/-- **C62**, for the store service: a read that looks for memory locks while no prewrite of the keys
it reads is under way finds none, so it is not refused for one. -/
theorem C62_no_stale_partial {evs : List Ev} (hok : storeOnly evs = true) {i : Nat} {r : Reader}
    (hr : (run init evs).readers[i]? = some r) (hp : r.phase = .raised)
    (hno : ∀ p ∈ (run init evs).pws, p.phase ≠ .ended → ∀ m ∈ p.req.muts, r.sel m.key = false) :
    (step (run init evs) (.look i)).readers[i]? = some { r with phase := .checking [] } := by
  have h := run_own init_own hok
  generalize run init evs = s at *
  have he : s.table.filter (fun p => r.sel p.1) = [] := by
    rw [List.filter_eq_nil_iff]
    rintro ⟨k, e⟩ hke hsel
    obtain ⟨_, p, hp, hpe, m, hm, hk⟩ := h.table k e hke
    have := hno p hp hpe m hm
    rw [hk] at this
    rw [this] at hsel
    cases hsel
  have hlt := (List.getElem?_eq_some_iff.1 hr).1
  simp only [step, hr, readerStep, hp, he, List.map_nil, setPhase]
  rw [List.getElem?_set_self hlt]

/-- A read waits for a memory lock only while a prewrite is between making the lock and picking the
timestamp, and gets past it after that step. -/
theorem C62_wait_partial {evs : List Ev} (hok : storeOnly evs = true) {i : Nat} {r : Reader}
    {e : Nat} {rest : List Nat} (hr : (run init evs).readers[i]? = some r)
    (hp : r.phase = .checking (e :: rest)) :
    ∃ pre : List Ev, (pre = [] ∨ ∃ j, pre = [.fix j]) ∧
      ∃ r', (run (run init evs) (pre ++ [.check i true])).readers[i]? = some r' ∧
        (r'.phase = .checking rest ∨ r'.phase = .memory e) := by
  have h := run_own init_own hok
  generalize run init evs = s at *
  have hlt := (List.getElem?_eq_some_iff.1 hr).1
  have key : ∀ (s' : Sys) (x : Entry), s'.readers = s.readers → s'.entries[e]? = some x →
      x.ready = true → ∃ r', (step s' (.check i true)).readers[i]? = some r' ∧
        (r'.phase = .checking rest ∨ r'.phase = .memory e) := by
    intro s' x hrs hx hready
    have hlt' : i < s'.readers.length := by rw [hrs]; exact hlt
    simp only [step, hrs, hr, readerStep, hp, hx, hready, setPhase]
    cases x.deleted <;> cases conflict x.lock r.ts r.resolved <;>
      simp [hlt]
  obtain ⟨x, hx, hw⟩ := h.readers r (List.mem_of_getElem? hr) _ hp e List.mem_cons_self
  rcases hw with hready | ⟨p, hpm, hrun, m, l, hcur⟩
  · exact ⟨[], Or.inl rfl, key s x rfl hx hready⟩
  · obtain ⟨j, hj⟩ := List.mem_iff_getElem?.1 hpm
    refine ⟨[.fix j], Or.inr ⟨j, rfl⟩, ?_⟩
    have helt := (List.getElem?_eq_some_iff.1 hx).1
    have hs : step s (.fix j) = fix s j p e m l := by
      simp only [step, hj, pwStep, hrun, hcur]
    show ∃ r', (step (step s (.fix j)) (.check i true)).readers[i]? = some r' ∧ _
    obtain ⟨y, p', hy, _, _, hf⟩ := fix_shape s j p e m l
    rw [hs, hf]
    exact key _ y rfl (List.getElem?_set_self helt) hy

/-- Such a wait, and the step that ends it. -/
example : ∃ r, (run init (raceEvs.take 3 ++ [.raise 0, .look 0])).readers[0]? = some r ∧
    r.phase = .checking [0] := ⟨_, rfl, rfl⟩

/-- A read that was refused for a memory lock was refused for a lock on a key it reads, of a
transaction it was not told to ignore, that began before the read, or was last locked for update
before it, and that could still commit at or below the read. -/
theorem C62_refused_partial {evs : List Ev} (hok : storeOnly evs = true) {r : Reader} {e : Nat}
    (hr : r ∈ (run init evs).readers) (hp : r.phase = .memory e) :
    ∃ x, (run init evs).entries[e]? = some x ∧ r.sel x.key = true ∧ x.lock.ts ∉ r.resolved ∧
      x.lock.min ≤ r.ts ∧ (x.lock.ts < r.ts ∨ 0 < x.lock.fut ∧ x.lock.fut < r.ts) := by
  obtain ⟨x, hx, _, hsel, hc⟩ := (run_seen init_seen init_own hok).mem r hr e hp
  refine ⟨x, hx, hsel, ?_⟩
  unfold conflict at hc
  grind

example : memoryAt (run init raceEvs) 30 = true := by decide +kernel

/-- A prewrite of vector key A by transaction 5 that has been applied and has returned, long ago; a
read at 10 is refused. -/
def staleEvs : List Ev :=
  [.prewrite { onePc5 with svc := .index, muts := [⟨kA, .put, false, none⟩] }, .next 0, .fix 0, .send 0,
   .apply 0, .finish 0, .begin 10 (· == kA) [], .raise 0, .look 0, .check 0 true]

/-- C62 fails in vector and document regions: nothing takes the memory locks out, so reads are
refused for a prewrite that has returned. -/
theorem C62_index_false : ∃ evs ts, memoryAt (run init evs) ts = true ∧
    (∀ p ∈ (run init (evs.take 6)).pws, p.phase = .ended) ∧
    (run init (evs.take 6)).readers.length = 0 := by
  refine ⟨staleEvs, 10, by decide +kernel, by decide +kernel, by decide +kernel⟩

/-! ## C63 -/

/-- What may become of a lock on disk while it stays: it keeps its transaction, what it asks for only
grows, a prewritten lock does not become pessimistic again, and it changes only by requests of its
transaction or by a push of it. -/
def Kept (s : Sys) (ev : Ev) (k : Key) (l l' : Lock) : Prop :=
  l'.ts = l.ts ∧ l.min ≤ l'.min ∧ l.fut ≤ l'.fut ∧ (l.pess = false → l'.pess = false) ∧
  (l' = l ∨ (∃ t, ev = .push k l.ts t) ∨ (∃ f, ev = .plock k l.ts f) ∨
    ∃ i p, ev = .apply i ∧ s.pws[i]? = some p ∧ p.req.start = l.ts)

theorem Kept.same {s : Sys} {ev : Ev} {k : Key} {l : Lock} : Kept s ev k l l :=
  ⟨rfl, Int.le_refl _, Int.le_refl _, id, .inl rfl⟩

/-- **C63**, for the store service: whatever runs concurrently, a lock on disk is kept for its
transaction, until a commit, a rollback or a one-phase commit of the same transaction takes it
away. -/
theorem C63_lock_kept_partial {evs : List Ev} (hok : storeOnly evs = true) {k : Key} {l : Lock}
    (hl : lookup (run init evs).locks k = some l) (ev : Ev) :
    (∃ l', lookup (step (run init evs) ev).locks k = some l' ∧ Kept (run init evs) ev k l l') ∨
    (lookup (step (run init evs) ev).locks k = none ∧
      ((∃ c, ev = .commit k l.ts c) ∨ ev = .rollback k l.ts ∨
       ∃ i p, ev = .apply i ∧ (run init evs).pws[i]? = some p ∧ p.req.start = l.ts ∧
         p.onePc = true)) := by
  have h := run_own init_own hok
  generalize run init evs = s at *
  have same : ∀ s' : Sys, s'.locks = s.locks →
      ∃ l', lookup s'.locks k = some l' ∧ Kept s ev k l l' :=
    fun s' e => ⟨l, by rw [e]; exact hl, .same⟩
  cases ev with
  | touch n ts => exact Or.inl (same _ rfl)
  | «begin» ts sel res => exact Or.inl (same _ rfl)
  | «raise» i | look i | check i b | serve i g | drop i =>
    left
    simp only [step]
    split
    · exact same _ rfl
    · unfold readerStep
      dsimp only
      repeat' split
      all_goals exact same _ rfl
  | prewrite r =>
    left
    simp only [step]
    split <;> exact same _ rfl
  | next i =>
    left
    simp only [step]
    split
    · exact same _ rfl
    · simp only [pwStep]
      split
      · unfold next
        dsimp only
        repeat' split
        all_goals exact same _ rfl
      · exact same _ rfl
  | fix i =>
    left
    simp only [step]
    split
    · exact same _ rfl
    · simp only [pwStep]
      split
      · rename_i p _ _ _ e m l _ _
        obtain ⟨x, p', _, _, _, hf⟩ := fix_shape s i p e m l
        rw [hf]
        exact same _ rfl
      · exact same _ rfl
  | send i | lose i | fail i =>
    left
    simp only [step]
    split
    · exact same _ rfl
    · simp only [pwStep]
      split <;> exact same _ rfl
  | finish i =>
    left
    simp only [step]
    split
    · exact same _ rfl
    · simp only [pwStep]
      split
      · unfold finish unlockKeys; split <;> exact same _ rfl
      · unfold finish unlockKeys; split <;> exact same _ rfl
      · exact same _ rfl
  | apply i =>
    simp only [step]
    split
    · exact Or.inl (same _ rfl)
    · rename_i p hp
      simp only [pwStep]
      split
      · rename_i hph
        have hpo := h.pws p (List.mem_of_getElem? hp)
        unfold apply
        dsimp only
        split
        · rename_i ho
          dsimp only
          rw [onePcLocks_lookup]
          split
          · rename_i hany
            obtain ⟨d, hd, hdk⟩ := List.any_eq_true.1 hany
            simp only [Bool.and_eq_true, beq_iff_eq] at hdk
            obtain ⟨_, hts, _, hmine⟩ := hpo.done (Or.inr hph) d hd
            rw [hdk.2] at hmine
            exact Or.inr ⟨rfl, Or.inr (Or.inr ⟨i, p, rfl, hp, hts ▸ (hmine l hl).1.symm, ho⟩)⟩
          · exact Or.inl ⟨l, hl, .same⟩
        · dsimp only
          left
          rcases lookup_putLocks s.locks p.done k with h1 | ⟨d, hd, hk, h1⟩
          · exact ⟨l, h1.trans hl, .same⟩
          · obtain ⟨_, hts, hps, hmine⟩ := hpo.done (Or.inr hph) d hd
            rw [hk] at hmine
            obtain ⟨h2, h3, h4⟩ := hmine l hl
            exact ⟨d.lock, h1, h2.symm, h3, h4, fun _ => hps,
              .inr (.inr (.inr ⟨i, p, rfl, hp, hts ▸ h2.symm⟩))⟩
      · exact Or.inl (same _ rfl)
  | plock k' start fut =>
    left
    simp only [step]
    split
    · split
      · rename_i hn
        dsimp only
        rw [lookup_assign]
        split
        · rename_i hk
          rw [← hk, hl] at hn
          cases hn
        · exact ⟨l, hl, .same⟩
      · rename_i l0 hl0
        split
        · rename_i hc
          dsimp only
          rw [lookup_assign]
          split
          · rename_i hk
            subst hk
            rw [hl] at hl0
            cases hl0
            refine ⟨_, rfl, rfl, Int.le_refl _, ?_, id, .inr (.inr (.inl ⟨fut, by rw [hc.1]⟩))⟩
            dsimp only
            split <;> omega
          · exact ⟨l, hl, .same⟩
        · exact same _ rfl
    · exact same _ rfl
  | commit k' start c =>
    simp only [step]
    split
    · exact Or.inl (same _ rfl)
    · rename_i l0 hl0
      split
      · rename_i hc
        dsimp only
        rw [lookup_erase]
        split
        · rename_i hk
          subst hk
          rw [hl] at hl0
          cases hl0
          exact Or.inr ⟨rfl, Or.inl ⟨c, by rw [hc.1]⟩⟩
        · exact Or.inl ⟨l, hl, .same⟩
      · exact Or.inl (same _ rfl)
  | rollback k' start =>
    simp only [step]
    split
    · exact Or.inl (same _ rfl)
    · rename_i l0 hl0
      split
      · rename_i hc
        dsimp only
        rw [lookup_erase]
        split
        · rename_i hk
          subst hk
          rw [hl] at hl0
          cases hl0
          exact Or.inr ⟨rfl, Or.inr (Or.inl (by rw [hc]))⟩
        · exact Or.inl ⟨l, hl, .same⟩
      · exact Or.inl (same _ rfl)
  | push k' start ts =>
    left
    simp only [step]
    split
    · dsimp only
      split
      · exact ⟨l, hl, .same⟩
      · rename_i l0 hl0
        split
        · rename_i hc
          rw [lookup_assign]
          split
          · rename_i hk
            subst hk
            rw [hl] at hl0
            cases hl0
            refine ⟨_, rfl, rfl, ?_, Int.le_refl _, id, .inr (.inl ⟨ts, by rw [hc.1]⟩)⟩
            dsimp only
            omega
          · exact ⟨l, hl, .same⟩
        · exact ⟨l, hl, .same⟩
    · exact same _ rfl
  | lead n => exact Or.inl (same _ rfl)
  | copy m n => exact Or.inl (same _ rfl)
  | move n => exact Or.inl (same _ rfl)

/-- A lock on disk. -/
example : lookup (run init (raceEvs.take 26)).locks kA = some ⟨7, 0, 13, true, false⟩ := by
  decide +kernel

/-- Transactions 5 and 6 prewrite the same vector, 5 to put it and 6 to delete it.  Their latches
are "1" and "0", so both find the key without a lock. -/
def lostEvs : List Ev :=
  [.prewrite ⟨.index, 5, [⟨kA, .put, false, none⟩], false, false, 0, 0⟩,
   .prewrite ⟨.index, 6, [⟨kA, .delete, false, none⟩], false, false, 0, 0⟩,
   .next 0, .next 1, .send 0, .send 1, .apply 0, .finish 0]

/-- C63 fails in vector and document regions: the prewrite of 5 has succeeded and its lock is on
disk, and the next event replaces it by a lock of 6. -/
theorem C63_index_false : ∃ evs ev k l l', lookup (run init evs).locks k = some l ∧
    lookup (step (run init evs) ev).locks k = some l' ∧ l'.ts ≠ l.ts := by
  refine ⟨lostEvs, .apply 1, kA, ⟨5, 0, 0, false, false⟩, ⟨6, 0, 0, false, false⟩, ?_, ?_, ?_⟩ <;>
    decide +kernel

end Verif.MemLock
