import Verif.Mvcc.Write

/-! # Raw KV properties C06, C07, C08, C46, C47 -/

namespace Verif.Mvcc
open Verif.Codec

theorem newestIn_iff {rs : List Rec} (hv : ∀ r ∈ rs, r.Valid) {T : Int} {k : Bytes} {x : Rec} :
    Newest (rs.map Rec.enc) T k x ↔ NewestIn rs T x ∧ x.key = k := by
  unfold Newest NewestIn
  simp only [stored_map hv]
  constructor
  · rintro ⟨h1, rfl, h3, h4⟩; exact ⟨⟨h1, h3, h4⟩, rfl⟩
  · rintro ⟨⟨h1, h3, h4⟩, rfl⟩; exact ⟨h1, rfl, h3, h4⟩

theorem effTs_eq (ts : Int) : effTs ts = readTs ts := by
  unfold effTs readTs
  by_cases h : ts > 0
  · rw [if_pos h, if_neg (by omega)]
  · rw [if_neg h, if_pos (by omega)]; rfl

/-! ## C06 -/

theorem kvGet_exact (st : Store) (h : WFStore st) (now ts : Int) (k : Bytes) (hk : k ≠ []) :
    (∀ v, kvGet st now ts k = .value v ↔
      ∃ r, Newest st (effTs ts) k r ∧ ¬ r.ver.emptyTTL ∧ r.ver.Live now ∧ r.ver.value = v) ∧
    (kvGet st now ts k = .notFound ↔
      ∀ r, Newest st (effTs ts) k r → ¬ r.ver.emptyTTL ∧ ¬ r.ver.Live now) ∧
    (kvGet st now ts k = .crash ↔ ∃ r, Newest st (effTs ts) k r ∧ r.ver.emptyTTL) ∧
    kvGet st now ts k ≠ .keyEmpty := by
  obtain ⟨rs, rfl, hv, hp⟩ := h.recs
  simp only [newestIn_iff hv]
  have uniq : ∀ {x y : Rec}, NewestIn rs (effTs ts) x ∧ x.key = k →
      NewestIn rs (effTs ts) y ∧ y.key = k → x = y :=
    fun hx hy => newestIn_unique hv hp hx.1 hy.1 (by rw [hx.2, hy.2])
  rcases kvGet_newest hv hp now ts hk with ⟨h1, x, h2, h3, h4⟩ | ⟨h1, h2⟩ | ⟨x, h1, h2, h3, h4, h5⟩
  · rw [h1]
    refine ⟨fun v => ⟨fun h => (by cases h), ?_⟩, ⟨fun h => (by cases h), ?_⟩,
      ⟨fun _ => ⟨x, ⟨h2, h3⟩, h4⟩, fun _ => rfl⟩, by simp⟩
    · rintro ⟨r, hr, h6, _⟩
      rw [uniq hr ⟨h2, h3⟩] at h6
      exact absurd h4 h6
    · intro hall
      exact absurd h4 (hall x ⟨h2, h3⟩).1
  · rw [h1]
    refine ⟨fun v => ⟨fun h => (by cases h), ?_⟩, ⟨fun _ r hr => h2 r hr.1 hr.2, fun _ => rfl⟩,
      ⟨fun h => (by cases h), ?_⟩, by simp⟩
    · rintro ⟨r, hr, _, h6, _⟩
      exact absurd h6 (h2 r hr.1 hr.2).2
    · rintro ⟨r, hr, h6⟩
      exact absurd h6 (h2 r hr.1 hr.2).1
  · rw [h1]
    refine ⟨fun v => ⟨fun h => ⟨x, ⟨h2, h3⟩, h4, h5, (GetOut.value.inj h)⟩, ?_⟩,
      ⟨fun h => (by cases h), ?_⟩, ⟨fun h => (by cases h), ?_⟩, by simp⟩
    · rintro ⟨r, hr, _, _, h6⟩
      rw [uniq hr ⟨h2, h3⟩] at h6
      rw [h6]
    · intro hall
      exact absurd h5 (hall x ⟨h2, h3⟩).2
    · rintro ⟨r, hr, h6⟩
      rw [uniq hr ⟨h2, h3⟩] at h6
      exact absurd h6 h4

/-- C06, exact form for every store content, including the abort: the read
looks at the newest version of exactly that key at or below the timestamp
(`ts ≤ 0` means newest) and nothing else. -/
theorem C06_kvGet_exact (st : Store) (h : WFStore st) (now ts : Int) (k : Bytes) (hk : k ≠ []) :
    (∀ v, kvGet st now ts k = .value v ↔
      ∃ r, Newest st (readTs ts) k r ∧ ¬ r.ver.emptyTTL ∧ r.ver.Live now ∧ r.ver.value = v) ∧
    (kvGet st now ts k = .notFound ↔
      ∀ r, Newest st (readTs ts) k r → ¬ r.ver.emptyTTL ∧ ¬ r.ver.Live now) ∧
    (kvGet st now ts k = .crash ↔ ∃ r, Newest st (readTs ts) k r ∧ r.ver.emptyTTL) ∧
    kvGet st now ts k ≠ .keyEmpty := by
  simp only [← effTs_eq]
  exact kvGet_exact st h now ts k hk

/-- C06 (partial): with no empty TTL value stored, the read returns the value of
the newest version if that is a put that has not expired, 'not found' otherwise.
Missing: stores holding an empty value with a TTL (`C06_false`). -/
theorem C06_kvGet_partial (st : Store) (h : WFStore st) (hn : NoEmptyTTL st) (now ts : Int)
    (k : Bytes) (hk : k ≠ []) :
    (∀ v, kvGet st now ts k = .value v ↔
      ∃ r, Newest st (readTs ts) k r ∧ r.ver.Live now ∧ r.ver.value = v) ∧
    (kvGet st now ts k = .notFound ↔ ¬ ∃ r, Newest st (readTs ts) k r ∧ r.ver.Live now) := by
  simp only [← effTs_eq] at *
  obtain ⟨h1, h2, _, _⟩ := kvGet_exact st h now ts k hk
  constructor
  · intro v
    rw [h1 v]
    constructor
    · rintro ⟨r, a, _, b, c⟩; exact ⟨r, a, b, c⟩
    · rintro ⟨r, a, b, c⟩; exact ⟨r, a, hn r a.1, b, c⟩
  · rw [h2]
    constructor
    · rintro hall ⟨r, a, b⟩; exact (hall r a).2 b
    · intro hne r a
      exact ⟨hn r a.1, fun b => hne ⟨r, a, b⟩⟩

/-- A store with one key written empty with a TTL. -/
def emptyTTLStore : Store := (writerPut [] 5 1000 [([107], [])]).getD []

/-- C06 is false of the code: reading an empty value stored with a TTL aborts
the server although the version is live. -/
theorem C06_false : ∃ st now ts k, WFStore st ∧ k ≠ [] ∧
    (∃ r, Newest st (readTs ts) k r ∧ r.ver.Live now) ∧ kvGet st now ts k = .crash := by
  simp only [← effTs_eq]
  refine ⟨emptyTTLStore, 10, 0, [107], ?_, by simp, ?_, by decide +kernel⟩
  · have := exec_spec (st := []) (op := .put 5 1000 [([107], [])]) (m := fun _ _ => none)
      ⟨by simp [SortedStore], by simp⟩ ⟨by constructor <;> decide, by constructor <;> decide⟩
      (by intro x; simp [Stored])
    exact this.1
  · have hs := (exec_spec (st := []) (op := .put 5 1000 [([107], [])]) (m := fun _ _ => none)
      ⟨by simp [SortedStore], by simp⟩ ⟨by constructor <;> decide, by constructor <;> decide⟩
      (by intro x; simp [Stored])).2
    have hs' : ∀ x, Stored emptyTTLStore x ↔ x.Valid ∧
      specStep (fun _ _ => none) (.put 5 1000 [([107], [])]) x.key x.ts = some x.ver := hs
    refine ⟨⟨[107], 5, .putTTL 1000 []⟩, ⟨?_, rfl, by decide, ?_⟩, by decide⟩
    · rw [hs']
      exact ⟨⟨by constructor <;> decide, by constructor <;> decide⟩, by decide⟩
    · intro r' hr' _ _
      rw [hs'] at hr'
      obtain ⟨_, h2⟩ := hr'
      simp only [specStep] at h2
      split at h2
      · rename_i ht
        rw [ht]
        exact Int.le_refl 5
      · cases h2

/-! ## C07 -/

theorem start_ne {start k : Bytes} (h : start ≠ []) (hle : start ≤ k) : k ≠ [] := by
  rintro rfl
  cases start with
  | nil => exact h rfl
  | cons b l => exact absurd hle (by simp)

/-- C07: a scan that does not abort returns, with strictly ascending keys,
exactly the keys of the range that a point read at the same timestamp returns a
value for, with that value; count and min key agree with it; and it aborts
exactly when some point read in the range would. -/
theorem C07_scan (st : Store) (h : WFStore st) (now ts : Int) (start stop : Bytes)
    (h1 : start ≠ []) (h2 : stop ≠ []) :
    (∀ out, kvScan st now ts start stop = .ok out →
      (∀ k v, (∃ t, (k, t, v) ∈ out) ↔ start ≤ k ∧ k < stop ∧ kvGet st now ts k = .value v) ∧
      out.Pairwise (fun a b => a.1 < b.1) ∧
      kvCount st now ts start stop = .ok out.length ∧
      kvMinKey st now ts start stop = .ok (out.head?.map (·.1))) ∧
    (kvScan st now ts start stop = .crash ↔
      ∃ k, start ≤ k ∧ k < stop ∧ kvGet st now ts k = .crash) ∧
    kvScan st now ts start stop ≠ .keyEmpty := by
  have hx := kvGet_exact st h now ts
  obtain ⟨rs, rfl, hv, hp⟩ := h.recs
  simp only [newestIn_iff hv] at hx
  have hpf := hp.sublist (List.filter_sublist (p := inRange start stop))
  have hvf : ∀ r ∈ rs.filter (inRange start stop), r.Valid :=
    fun r hr => hv r (List.mem_filter.1 hr).1
  have hn : ∀ {x}, NewestIn (rs.filter (inRange start stop)) (effTs ts) x ↔
      NewestIn rs (effTs ts) x ∧ start ≤ x.key ∧ x.key < stop := by
    intro x
    rw [newestIn_filter _ (inRange_congr start stop)]
    simp [inRange]
  rw [kvScan_recs hv hp now ts h1 h2, kvCount_recs hv hp now ts h1 h2]
  refine ⟨?_, ?_, ?_⟩
  · intro out hout
    cases hsc : scanO (effTs ts) now none (rs.filter (inRange start stop)) with
    | none => rw [hsc] at hout; cases hout
    | some l =>
      rw [hsc] at hout
      cases hout
      have hl := scanO_some hsc
      have hmem : ∀ x, x ∈ l ↔ (NewestIn rs (effTs ts) x ∧ start ≤ x.key ∧ x.key < stop) ∧
          x.ver.Live now := by
        intro x
        rw [hl, mem_scanR hpf no_prev x, hn]
        simp
      have hnoE : ∀ x, NewestIn rs (effTs ts) x → start ≤ x.key → x.key < stop →
          ¬ x.ver.emptyTTL := by
        intro x a b c d
        have := (scanO_none (now := now) hpf no_prev).2 ⟨x, hn.2 ⟨a, b, c⟩, d, by simp⟩
        rw [hsc] at this; cases this
      refine ⟨?_, ?_, ?_, ?_⟩
      · intro k v
        constructor
        · rintro ⟨t, ht⟩
          obtain ⟨x, hxl, he⟩ := List.mem_map.1 ht
          cases he
          obtain ⟨⟨a, b, c⟩, d⟩ := (hmem x).1 hxl
          refine ⟨b, c, ?_⟩
          exact ((hx x.key (start_ne h1 b)).1 _).2 ⟨x, ⟨a, rfl⟩, hnoE x a b c, d, rfl⟩
        · rintro ⟨a, b, c⟩
          obtain ⟨x, ⟨d, rfl⟩, _, e, rfl⟩ := ((hx k (start_ne h1 a)).1 v).1 c
          exact ⟨x.ts, List.mem_map.2 ⟨x, (hmem x).2 ⟨⟨d, a, b⟩, e⟩, rfl⟩⟩
      · rw [List.pairwise_map, hl]
        exact scanR_keys hpf no_prev
      · simp
      · unfold kvMinKey
        rw [if_neg (by simp [h1, h2]), seek_range hv hp]
        rcases nextVisible_exact (ts := effTs ts) (now := now) (prev := none) hvf with
          ⟨e1, e2⟩ | ⟨e1, p, e2⟩ | ⟨r, rest, ⟨pre, hpre⟩, e1, e2⟩
        · rw [e1] at hsc; cases hsc
        · simp only [encPrev] at e2
          rw [e1] at hsc; cases hsc
          rw [e2]; rfl
        · simp only [encPrev] at e1
          rw [e1]
          have hr : r.Valid := hvf r (by rw [hpre]; simp)
          simp only [decodeKey_enc hr]
          rw [e2] at hsc
          cases hs' : scanO (effTs ts) now (some r.key) rest with
          | none => rw [hs'] at hsc; cases hsc
          | some l' => rw [hs'] at hsc; cases hsc; rfl
  · cases hsc : scanO (effTs ts) now none (rs.filter (inRange start stop)) with
    | none =>
      simp only [true_iff]
      obtain ⟨x, a, b, _⟩ := (scanO_none hpf no_prev).1 hsc
      obtain ⟨a, c, d⟩ := hn.1 a
      exact ⟨x.key, c, d, ((hx x.key (start_ne h1 c)).2.2.1).2 ⟨x, ⟨a, rfl⟩, b⟩⟩
    | some l =>
      simp only [reduceCtorEq, false_iff]
      rintro ⟨k, a, b, c⟩
      obtain ⟨x, ⟨d, rfl⟩, e⟩ := ((hx k (start_ne h1 a)).2.2.1).1 c
      have := (scanO_none (now := now) hpf no_prev).2 ⟨x, hn.2 ⟨d, a, b⟩, e, by simp⟩
      rw [hsc] at this; cases this
  · split <;> simp

/-- C07 (partial), backward: with no empty TTL value stored, the backward
traversal of the range visits the scanned pairs in reverse order and the max key
is the last one scanned.  Missing: stores holding an empty value with a TTL, where
the backward traversal aborts even on a superseded version
(`C07_backward_false`). -/
theorem C07_backward_partial (st : Store) (h : WFStore st) (hn : NoEmptyTTL st) (now ts : Int)
    (start stop : Bytes) (h1 : start ≠ []) (h2 : stop ≠ []) :
    ∃ out, kvScan st now ts start stop = .ok out ∧
      (backwardAll (readTs ts) now (seekForPrev st (encodeBytes stop) (encodeBytes start))).bind
        (List.mapM decodeEntry) = some out.reverse ∧
      kvMaxKey st now ts start stop = .ok (out.getLast?.map (·.1)) := by
  simp only [← effTs_eq] at *
  have hx := kvGet_exact st h now ts
  have hscan := C07_scan st h now ts start stop h1 h2
  obtain ⟨rs, rfl, hv, hp⟩ := h.recs
  have hne : ∀ r ∈ rs, ¬ r.ver.emptyTTL := fun r hr => hn r ((stored_map hv).2 hr)
  have hpf := hp.sublist (List.filter_sublist (p := inRange start stop))
  have hvf : ∀ r ∈ rs.filter (inRange start stop), r.Valid :=
    fun r hr => hv r (List.mem_filter.1 hr).1
  have hnef : ∀ r ∈ rs.filter (inRange start stop), ¬ r.ver.emptyTTL :=
    fun r hr => hne r (List.mem_filter.1 hr).1
  have hvr : ∀ r ∈ (rs.filter (inRange start stop)).reverse, r.Valid :=
    fun r hr => hvf r (List.mem_reverse.1 hr)
  have hner : ∀ r ∈ (rs.filter (inRange start stop)).reverse, ¬ r.ver.emptyTTL :=
    fun r hr => hnef r (List.mem_reverse.1 hr)
  have hpr : (rs.filter (inRange start stop)).reverse.Pairwise (fun r s => s.lt r) := by
    rw [List.pairwise_reverse]; exact hpf
  cases hsc : scanO (effTs ts) now none (rs.filter (inRange start stop)) with
  | none =>
    obtain ⟨x, a, b, _⟩ := (scanO_none hpf no_prev).1 hsc
    exact absurd b (hnef x a.1)
  | some l =>
    have hl := scanO_some hsc
    have hback : backR (effTs ts) now none (rs.filter (inRange start stop)).reverse = l.reverse := by
      have hk1 := backR_keys (ts := effTs ts) (now := now) (cur := none) hpr (by simp)
      have hk2 : l.Pairwise (fun r s => r.key < s.key) := by
        rw [hl]; exact scanR_keys hpf no_prev
      have := eq_of_keys (l := (backR (effTs ts) now none
          (rs.filter (inRange start stop)).reverse).reverse) (m := l)
        (by rw [List.pairwise_reverse]; exact hk1) hk2 (by
          intro x
          rw [List.mem_reverse, mem_backR hpr (by simp) x, hl, mem_scanR hpf no_prev x]
          unfold NewestIn
          simp only [List.mem_reverse, reduceCtorEq, or_false, ne_eq, not_false_eq_true, and_true]
          constructor
          · rintro ⟨a, b, c, d⟩; exact ⟨⟨a, b, d⟩, c⟩
          · rintro ⟨⟨a, b, d⟩, c⟩; exact ⟨a, b, c, d⟩)
      rw [← this, List.reverse_reverse]
    have hlv : ∀ r ∈ l, r.Valid := by
      intro r hr
      rw [hl] at hr
      exact hvf r (scanR_sublist.subset hr)
    refine ⟨l.map (fun r => (r.key, r.ts, r.ver.value)), ?_, ?_, ?_⟩
    · rw [kvScan_recs hv hp now ts h1 h2, hsc]
    · rw [seekForPrev_range hv hp, backwardAll_eq hvr hner, hback, Option.bind_some,
        mapM_decodeEntry (fun r hr => hlv r (List.mem_reverse.1 hr)), List.map_reverse]
    · unfold kvMaxKey
      rw [if_neg (by simp [h1, h2]), seekForPrev_range hv hp]
      rcases prevVisible_spec (ts := effTs ts) (now := now) (cur := none) hvr (by simp) hner with
        ⟨e1, m, e2⟩ | ⟨r, rest, ⟨pre, hpre⟩, e1, e2, e3⟩
      · simp only [Option.map_none] at e2
        rw [e2]
        rw [hback] at e1
        have : l = [] := by simpa using e1
        subst this
        rfl
      · simp only [Option.map_none] at e1
        rw [e1]
        simp only [decodeKey_enc e3]
        rw [hback] at e2
        have : l.getLast? = some r := by
          rw [← List.head?_reverse, e2]; rfl
        simp [List.getLast?_map, this]

/-- A key with a superseded empty TTL value. -/
def supersededStore : Store :=
  [Op.put 5 1000 [([107], [])], Op.put 9 0 [([107], [1])]].foldl exec []

/-- C07 is false of the code for the max key: an empty TTL value that is not
the newest version leaves scans working but aborts the backward traversal. -/
theorem C07_backward_false : kvScan supersededStore 10 0 [97] [122] = .ok [([107], 9, [1])] ∧
    kvMaxKey supersededStore 10 0 [97] [122] = .crash := by
  constructor <;> decide +kernel

/-! ## C08 -/

/-- C08: after any history of raw writes the store is well formed and holds
exactly the versions the abstract history holds. -/
theorem C08_history (ops : List Op) (hops : ∀ op ∈ ops, op.Valid) :
    WFStore (ops.foldl exec []) ∧
      ∀ r, Stored (ops.foldl exec []) r ↔
        r.Valid ∧ (ops.foldl specStep (fun _ _ => none)) r.key r.ts = some r.ver := by
  have gen : ∀ (ops : List Op), (∀ op ∈ ops, op.Valid) → ∀ (st : Store) (m : Content),
      WFStore st → (∀ x, Stored st x ↔ x.Valid ∧ m x.key x.ts = some x.ver) →
      WFStore (ops.foldl exec st) ∧
      ∀ r, Stored (ops.foldl exec st) r ↔
        r.Valid ∧ (ops.foldl specStep m) r.key r.ts = some r.ver := by
    intro ops
    induction ops with
    | nil => intro _ st m h1 h2; exact ⟨h1, h2⟩
    | cons op ops ih =>
      intro hv st m h1 h2
      obtain ⟨h3, h4⟩ := exec_spec h1 (hv op (by simp)) h2
      exact ih (fun o ho => hv o (List.mem_cons_of_mem _ ho)) _ _ h3 h4
  exact gen ops hops [] _ ⟨by simp [SortedStore], by simp⟩ (by intro x; simp [Stored])

/-- Every version a put or delete writes is newer than `T`. -/
def WritesAbove (T : Int) : Op → Prop
  | .put ts _ _ => T < ts
  | .delete _ ts _ => T < ts
  | .deleteRange _ _ => False

theorem stored_above {st : Store} (h : WFStore st) {op : Op} (hop : op.Valid) {T : Int}
    (ha : WritesAbove T op) :
    WFStore (exec st op) ∧ ∀ x, x.ts ≤ T → (Stored (exec st op) x ↔ Stored st x) := by
  cases op with
  | put ts ttl kvs =>
    obtain ⟨h1, h2⟩ := hop
    have ha : T < ts := ha
    have hv : ∀ r ∈ kvs.map (fun kv => (⟨kv.1, ts, putVer ttl kv.2⟩ : Rec)), r.Valid := by
      intro r hr
      obtain ⟨kv, _, rfl⟩ := List.mem_map.1 hr
      exact ⟨h1, putVer_valid h2 _⟩
    obtain ⟨hw, hs⟩ := stored_batchPut h hv
    unfold exec
    simp only [writerPut_eq h1, Option.getD_some]
    refine ⟨hw, fun x hx => ?_⟩
    rw [hs x, lastRec_put, if_neg (by omega)]
  | delete now ts keys =>
    have ha : T < ts := ha
    have hv : ∀ r ∈ keys.map (fun k => (⟨k, ts, .del⟩ : Rec)), r.Valid := by
      intro r hr
      obtain ⟨kv, _, rfl⟩ := List.mem_map.1 hr
      exact ⟨hop, trivial⟩
    obtain ⟨hw, hs⟩ := stored_batchPut h hv
    unfold exec
    simp only
    rw [writerDelete_eq hop, Option.getD_some]
    refine ⟨hw, fun x hx => ?_⟩
    rw [hs x, lastRec_del, if_neg (by omega)]
  | deleteRange _ _ => exact absurd ha (by simp [WritesAbove])

/-- Reads at `T` depend only on the versions at or below `T`. -/
theorem read_congr {st st' : Store} (h : WFStore st) (h' : WFStore st') {ts : Int}
    (he : ∀ x, x.ts ≤ effTs ts → (Stored st' x ↔ Stored st x)) (now : Int) :
    (∀ k, kvGet st' now ts k = kvGet st now ts k) ∧
    (∀ start stop, kvScan st' now ts start stop = kvScan st now ts start stop ∧
      kvCount st' now ts start stop = kvCount st now ts start stop) := by
  obtain ⟨rs, rfl, hv, hp⟩ := h.recs
  obtain ⟨rs', rfl, hv', hp'⟩ := h'.recs
  simp only [stored_map hv, stored_map hv'] at he
  have key : ∀ p : Rec → Bool, scanO (effTs ts) now none (rs'.filter p) =
      scanO (effTs ts) now none (rs.filter p) := by
    intro p
    rw [← scanO_filter (rs := rs'.filter p) (fun r => decide (r.ts ≤ effTs ts)) (by simp),
      ← scanO_filter (rs := rs.filter p) (fun r => decide (r.ts ≤ effTs ts)) (by simp)]
    congr 1
    apply eq_of_recs
    · exact (hp'.sublist List.filter_sublist).sublist List.filter_sublist
    · exact (hp.sublist List.filter_sublist).sublist List.filter_sublist
    · intro x
      simp only [List.mem_filter, decide_eq_true_eq]
      constructor
      · rintro ⟨⟨a, b⟩, c⟩; exact ⟨⟨(he x c).1 a, b⟩, c⟩
      · rintro ⟨⟨a, b⟩, c⟩; exact ⟨⟨(he x c).2 a, b⟩, c⟩
  constructor
  · intro k
    by_cases hk : k = []
    · subst hk; rfl
    · rw [kvGet_recs hv hp now ts hk, kvGet_recs hv' hp' now ts hk, key]
  · intro start stop
    by_cases h1 : start = []
    · subst h1; exact ⟨rfl, rfl⟩
    · by_cases h2 : stop = []
      · subst h2; simp [kvScan, kvCount]
      · rw [kvScan_recs hv hp now ts h1 h2, kvScan_recs hv' hp' now ts h1 h2,
          kvCount_recs hv hp now ts h1 h2, kvCount_recs hv' hp' now ts h1 h2, key]
        exact ⟨rfl, rfl⟩

/-- C08: no read at `ts` (point, scan or count) is changed by any number of later
puts and deletes with larger timestamps. -/
theorem C08_stable (st : Store) (h : WFStore st) (ts now : Int) (ops : List Op)
    (hops : ∀ op ∈ ops, op.Valid ∧ WritesAbove (readTs ts) op) :
    (∀ k, kvGet (ops.foldl exec st) now ts k = kvGet st now ts k) ∧
    (∀ start stop, kvScan (ops.foldl exec st) now ts start stop = kvScan st now ts start stop ∧
      kvCount (ops.foldl exec st) now ts start stop = kvCount st now ts start stop) := by
  simp only [← effTs_eq] at *
  induction ops generalizing st with
  | nil => exact ⟨fun _ => rfl, fun _ _ => ⟨rfl, rfl⟩⟩
  | cons op ops ih =>
    obtain ⟨h1, h2⟩ := stored_above h (hops op (by simp)).1 (hops op (by simp)).2
    have ih' := ih (exec st op) h1 (fun o ho => hops o (List.mem_cons_of_mem _ ho))
    have hc := read_congr h h1 h2 now
    refine ⟨fun k => (ih'.1 k).trans (hc.1 k), fun a b => ⟨?_, ?_⟩⟩
    · exact (ih'.2 a b).1.trans (hc.2 a b).1
    · exact (ih'.2 a b).2.trans (hc.2 a b).2

theorem newest_put {st : Store} (h : WFStore st) {wts ttl : Int} {kvs : List (Bytes × Bytes)}
    (h1 : ValidTs wts) (h2 : IsI64 ttl) {k v : Bytes} (hl : lastFor kvs k = some v)
    {T : Int} (hT : wts ≤ T)
    (hold : ∀ r, Stored st r → r.key = k → r.ts ≤ T → r.ts ≤ wts) :
    WFStore (exec st (.put wts ttl kvs)) ∧
    Newest (exec st (.put wts ttl kvs)) T k ⟨k, wts, putVer ttl v⟩ := by
  have hv : ∀ r ∈ kvs.map (fun kv => (⟨kv.1, wts, putVer ttl kv.2⟩ : Rec)), r.Valid := by
    intro r hr
    obtain ⟨kv, _, rfl⟩ := List.mem_map.1 hr
    exact ⟨h1, putVer_valid h2 _⟩
  obtain ⟨hw, hs⟩ := stored_batchPut h hv
  unfold exec
  simp only [writerPut_eq h1, Option.getD_some]
  refine ⟨hw, ?_, rfl, hT, ?_⟩
  · rw [hs]; simp [lastRec_put, hl]
  · intro r' hr' hk ht
    rw [hs, lastRec_put] at hr'
    split at hr'
    · rename_i he
      rw [hk] at he
      by_cases hts : r'.ts = wts
      · simp [hts]
      · rw [if_neg hts] at he; cases he
    · exact hold r' hr' hk ht

/-- C08: a read at or above the last write's timestamp sees that write: a put
is read back (until it expires, if it has a TTL). -/
theorem C08_read_your_put (st : Store) (h : WFStore st) (wts ttl ts now : Int)
    (kvs : List (Bytes × Bytes)) (h1 : ValidTs wts) (h2 : IsI64 ttl) (k v : Bytes) (hk : k ≠ [])
    (hl : lastFor kvs k = some v) (hT : wts ≤ readTs ts)
    (hold : ∀ r, Stored st r → r.key = k → r.ts ≤ readTs ts → r.ts ≤ wts)
    (hv : ttl = 0 ∨ v ≠ []) :
    kvGet (exec st (.put wts ttl kvs)) now ts k =
      if ttl = 0 ∨ now ≤ ttl then .value v else .notFound := by
  simp only [← effTs_eq] at *
  obtain ⟨hw, hn⟩ := newest_put h h1 h2 hl hT hold
  obtain ⟨e1, e2, _, _⟩ := kvGet_exact _ hw now ts k hk
  have hne : ¬ (putVer ttl v).emptyTTL := by
    unfold putVer
    rcases hv with rfl | hv
    · simp [Ver.emptyTTL]
    · split
      · simp [Ver.emptyTTL]
      · cases v with
        | nil => exact absurd rfl hv
        | cons b v => simp [Ver.emptyTTL]
  have hval : (putVer ttl v).value = v := by unfold putVer; split <;> rfl
  have hlive : (putVer ttl v).Live now ↔ (ttl = 0 ∨ now ≤ ttl) := by
    unfold putVer
    split
    · rename_i h; simp [Ver.Live, h]
    · rename_i h; simp [Ver.Live, h]
  split
  · rename_i hc
    exact (e1 v).2 ⟨_, hn, hne, hlive.2 hc, hval⟩
  · rename_i hc
    refine e2.2 (fun r hr => ?_)
    have : r = ⟨k, wts, putVer ttl v⟩ := by
      apply Stored.unique hw hr.1 hn.1 hr.2.1
      have a := hr.2.2.2 _ hn.1 rfl hn.2.2.1
      have b := hn.2.2.2 _ hr.1 hr.2.1 hr.2.2.1
      have a : wts ≤ r.ts := a
      have b : r.ts ≤ wts := b
      show r.ts = wts
      omega
    rw [this]
    exact ⟨hne, fun h => hc (hlive.1 h)⟩

/-- C08: a delete hides the key from every read at or above its timestamp. -/
theorem C08_read_your_delete (st : Store) (h : WFStore st) (wts ts now now' : Int)
    (keys : List Bytes) (h1 : ValidTs wts) (k : Bytes) (hk : k ≠ []) (hl : k ∈ keys)
    (hT : wts ≤ readTs ts)
    (hold : ∀ r, Stored st r → r.key = k → r.ts ≤ readTs ts → r.ts ≤ wts) :
    kvGet (exec st (.delete now' wts keys)) now ts k = .notFound := by
  simp only [← effTs_eq] at *
  have hv : ∀ r ∈ keys.map (fun k => (⟨k, wts, .del⟩ : Rec)), r.Valid := by
    intro r hr
    obtain ⟨kv, _, rfl⟩ := List.mem_map.1 hr
    exact ⟨h1, trivial⟩
  obtain ⟨hw, hs⟩ := stored_batchPut h hv
  unfold exec
  simp only
  rw [writerDelete_eq h1, Option.getD_some]
  obtain ⟨e1, e2, _, _⟩ := kvGet_exact _ hw now ts k hk
  refine e2.2 (fun r hr => ?_)
  have hd : Stored (batchPut st ((keys.map (fun k => (⟨k, wts, .del⟩ : Rec))).map Rec.enc))
      ⟨k, wts, .del⟩ := by
    rw [hs]; simp [lastRec_del, hl]
  have : r = ⟨k, wts, .del⟩ := by
    apply Stored.unique hw hr.1 hd hr.2.1
    have a : wts ≤ r.ts := hr.2.2.2 _ hd rfl hT
    show r.ts = wts
    have b := hr.1
    rw [hs, lastRec_del] at b
    split at b
    · rename_i he
      by_cases hts : r.ts = wts
      · exact hts
      · rw [if_neg (fun h => hts h.1)] at he; cases he
    · have := hold r b hr.2.1 hr.2.2.1
      omega
  rw [this]
  exact ⟨by simp [Ver.emptyTTL], by simp [Ver.Live]⟩

/-- C08: a delete reports for each key whether it had a live value. -/
theorem C08_delete_states (st : Store) (now ts : Int) (keys : List Bytes) (h : ValidTs ts) :
    ∃ states st', writerDelete st now ts keys = some (states, st') ∧
      states.length = keys.length ∧
      ∀ (i : Nat) (k : Bytes), keys[i]? = some k →
        (states[i]? = some true ↔ ∃ v, kvGet st now 0 k = .value v) := by
  unfold writerDelete
  rw [mapM_some (fun k => encodeDelete_rec h k), Option.map_some]
  refine ⟨_, _, rfl, by simp, ?_⟩
  intro i k hk
  rw [List.getElem?_map, hk, Option.map_some]
  cases kvGet st now 0 k <;> simp

/-- A write to other keys does not change a read of `k`. -/
theorem C08_other_keys (st : Store) (h : WFStore st) (op : Op) (hop : op.Valid) (k : Bytes)
    (hno : match op with
      | .put _ _ kvs => ∀ kv ∈ kvs, kv.1 ≠ k
      | .delete _ _ keys => k ∉ keys
      | .deleteRange start stop => ¬ (start ≤ k ∧ k < stop)) (now ts : Int) :
    kvGet (exec st op) now ts k = kvGet st now ts k := by
  by_cases hk : k = []
  · subst hk; rfl
  have hsame : WFStore (exec st op) ∧ ∀ x, x.key = k → (Stored (exec st op) x ↔ Stored st x) := by
    cases op with
    | put wts ttl kvs =>
      obtain ⟨h1, h2⟩ := hop
      have hv : ∀ r ∈ kvs.map (fun kv => (⟨kv.1, wts, putVer ttl kv.2⟩ : Rec)), r.Valid := by
        intro r hr
        obtain ⟨kv, _, rfl⟩ := List.mem_map.1 hr
        exact ⟨h1, putVer_valid h2 _⟩
      obtain ⟨hw, hs⟩ := stored_batchPut h hv
      unfold exec
      simp only [writerPut_eq h1, Option.getD_some]
      refine ⟨hw, fun x hx => ?_⟩
      have hl : lastFor kvs x.key = none := by
        unfold lastFor
        rw [List.filter_eq_nil_iff.2]
        · rfl
        · intro kv hkv
          simpa [hx] using hno kv hkv
      rw [hs x, lastRec_put, hl]
      split
      · rename_i he; split at he <;> cases he
      · rfl
    | delete now' wts keys =>
      have hv : ∀ r ∈ keys.map (fun k => (⟨k, wts, .del⟩ : Rec)), r.Valid := by
        intro r hr
        obtain ⟨kv, _, rfl⟩ := List.mem_map.1 hr
        exact ⟨hop, trivial⟩
      obtain ⟨hw, hs⟩ := stored_batchPut h hv
      unfold exec
      simp only
      rw [writerDelete_eq hop, Option.getD_some]
      refine ⟨hw, fun x hx => ?_⟩
      rw [hs x, lastRec_del, hx, if_neg (fun h => hno h.2)]
    | deleteRange start stop =>
      obtain ⟨hw, hs⟩ := stored_deleteRange h hop
      refine ⟨hw, fun x hx => ?_⟩
      have : exec st (.deleteRange start stop) = writerDeleteRange st start stop := rfl
      rw [this, hs x, hx]
      exact ⟨fun h => h.2, fun h => ⟨hno, h⟩⟩
  obtain ⟨hw, hs⟩ := hsame
  obtain ⟨rs, e, hv, hp⟩ := h.recs
  obtain ⟨rs', e', hv', hp'⟩ := hw.recs
  rw [e', e] at hs ⊢
  simp only [stored_map hv, stored_map hv'] at hs
  rw [kvGet_recs hv hp now ts hk, kvGet_recs hv' hp' now ts hk]
  have : rs'.filter (ofKey k) = rs.filter (ofKey k) := by
    apply eq_of_recs (hp'.sublist List.filter_sublist) (hp.sublist List.filter_sublist)
    intro x
    simp only [List.mem_filter, ofKey, decide_eq_true_eq]
    constructor
    · rintro ⟨a, b⟩; exact ⟨(hs x b).1 a, b⟩
    · rintro ⟨a, b⟩; exact ⟨(hs x b).2 a, b⟩
  rw [this]

/-- A range delete removes the keys of the range from every read, at every
timestamp. -/
theorem C08_delete_range (st : Store) (h : WFStore st) (start stop k : Bytes) (hlt : start < stop)
    (hk : k ≠ []) (hr : start ≤ k ∧ k < stop) (now ts : Int) :
    kvGet (exec st (.deleteRange start stop)) now ts k = .notFound := by
  obtain ⟨hw, hs⟩ := stored_deleteRange h hlt
  refine ((kvGet_exact _ hw now ts k hk).2.1).2 (fun r hr' => ?_)
  have := (hs r).1 hr'.1
  rw [hr'.2.1] at this
  exact absurd hr this.1

theorem kvGet_ne_keyEmpty {st : Store} {now ts : Int} {k : Bytes} (hk : k ≠ []) :
    kvGet st now ts k ≠ .keyEmpty := by
  unfold kvGet
  rw [if_neg (by simpa using hk)]
  intro hc
  dsimp only at hc
  split at hc
  · cases hc
  · cases hc
  · split at hc <;> cases hc

/-! ## C46: conditional put -/

/-- The decision on one key: is it absent for a read of the newest version? -/
def absent (st : Store) (now : Int) (k : Bytes) : Bool := decide (kvGet st now 0 k = .notFound)

theorem pifLoop_nonatomic {st : Store} {now : Int} {kvs : List (Bytes × Bytes)}
    (h : ∀ kv ∈ kvs, kvGet st now 0 kv.1 ≠ .keyEmpty ∧ kvGet st now 0 kv.1 ≠ .crash) :
    pifLoop st now false kvs =
      .inr (kvs.filter (fun kv => absent st now kv.1), kvs.map (fun kv => absent st now kv.1)) := by
  induction kvs with
  | nil => rfl
  | cons kv kvs ih =>
    have ih' := ih (fun x hx => h x (List.mem_cons_of_mem _ hx))
    obtain ⟨h1, h2⟩ := h kv (by simp)
    simp only [pifLoop, ih']
    cases hg : kvGet st now 0 kv.1 with
    | keyEmpty => exact absurd hg h1
    | crash => exact absurd hg h2
    | notFound => simp [absent, hg]
    | value v => simp [absent, hg]

theorem pifLoop_atomic {st : Store} {now : Int} {kvs : List (Bytes × Bytes)}
    (h : ∀ kv ∈ kvs, kvGet st now 0 kv.1 ≠ .keyEmpty ∧ kvGet st now 0 kv.1 ≠ .crash) :
    pifLoop st now true kvs =
      if kvs.all (fun kv => absent st now kv.1) then .inr (kvs, kvs.map (fun _ => true))
      else .inl (.states []) := by
  induction kvs with
  | nil => rfl
  | cons kv kvs ih =>
    have ih' := ih (fun x hx => h x (List.mem_cons_of_mem _ hx))
    obtain ⟨h1, h2⟩ := h kv (by simp)
    simp only [pifLoop, ih']
    cases hg : kvGet st now 0 kv.1 with
    | keyEmpty => exact absurd hg h1
    | crash => exact absurd hg h2
    | notFound =>
      have ha : absent st now kv.1 = true := by simp [absent, hg]
      rw [List.all_cons, ha, Bool.true_and]
      by_cases hall : (kvs.all (fun kv => absent st now kv.1)) = true
      · rw [if_pos hall, if_pos hall]; rfl
      · rw [if_neg hall, if_neg hall]
    | value v => simp [absent, hg]

/-- C46: a non-atomic put-if-absent reports success for exactly the keys that a
read of the newest version does not find, and its effect is exactly that of a
put of those pairs. -/
theorem C46_put_if_absent (st : Store) (now ts ttl : Int) (kvs : List (Bytes × Bytes))
    (hts : ValidTs ts) (hne : kvs ≠ [])
    (hk : ∀ kv ∈ kvs, kv.1 ≠ [] ∧ kvGet st now 0 kv.1 ≠ .crash) :
    writerPutIfAbsent st now ts ttl kvs false =
      (.states (kvs.map (fun kv => absent st now kv.1)),
       exec st (.put ts ttl (kvs.filter (fun kv => absent st now kv.1)))) := by
  have h : ∀ kv ∈ kvs, kvGet st now 0 kv.1 ≠ .keyEmpty ∧ kvGet st now 0 kv.1 ≠ .crash := by
    intro kv hkv
    refine ⟨?_, (hk kv hkv).2⟩
    exact kvGet_ne_keyEmpty (hk kv hkv).1
  unfold writerPutIfAbsent
  rw [if_neg (by simpa using hne), pifLoop_nonatomic h]
  simp only [exec, writerPut_eq hts, Option.getD_some]
  split
  · rename_i he
    have he : kvs.filter (fun kv => absent st now kv.1) = [] := by simpa using he
    rw [he]
    simp only [List.map_nil, batchPut, List.foldl_nil]
    have : kvs.map (fun kv => absent st now kv.1) = List.replicate kvs.length false := by
      rw [List.filter_eq_nil_iff] at he
      rw [List.eq_replicate_iff]
      refine ⟨by simp, fun b hb => ?_⟩
      obtain ⟨kv, h1, h2⟩ := List.mem_map.1 hb
      have := he kv h1
      rw [h2] at this
      simpa using this
    rw [this]
  · rfl

/-- C46: an atomic put-if-absent writes all pairs if every key is absent, and
otherwise writes nothing and reports failure for every key. -/
theorem C46_put_if_absent_atomic (st : Store) (now ts ttl : Int) (kvs : List (Bytes × Bytes))
    (hts : ValidTs ts) (hne : kvs ≠ [])
    (hk : ∀ kv ∈ kvs, kv.1 ≠ [] ∧ kvGet st now 0 kv.1 ≠ .crash) :
    writerPutIfAbsent st now ts ttl kvs true =
      if ∀ kv ∈ kvs, absent st now kv.1 = true then
        (.states (kvs.map (fun _ => true)), exec st (.put ts ttl kvs))
      else (.states (kvs.map (fun _ => false)), st) := by
  have h : ∀ kv ∈ kvs, kvGet st now 0 kv.1 ≠ .keyEmpty ∧ kvGet st now 0 kv.1 ≠ .crash := by
    intro kv hkv
    refine ⟨?_, (hk kv hkv).2⟩
    exact kvGet_ne_keyEmpty (hk kv hkv).1
  have hrep : kvs.map (fun _ => false) = List.replicate kvs.length false := by
    rw [List.eq_replicate_iff]; simp
  unfold writerPutIfAbsent
  rw [if_neg (by simpa using hne), pifLoop_atomic h]
  by_cases hall : ∀ kv ∈ kvs, absent st now kv.1 = true
  · rw [if_pos (by simpa using hall), if_pos hall]
    simp only [exec, writerPut_eq hts, Option.getD_some]
    rw [if_neg (by simpa using hne)]
  · rw [if_neg (by simpa using hall), if_neg hall]
    rw [hrep]

/-- C46 is false of the code for a batch naming a key twice: both writes report
success. -/
theorem C46_duplicate_false :
    (writerPutIfAbsent [] 10 5 0 [([107], [1]), ([107], [2])] false).1 = .states [true, true] ∧
    kvGet (writerPutIfAbsent [] 10 5 0 [([107], [1]), ([107], [2])] false).2 10 0 [107] =
      .value [2] := by
  constructor <;> decide +kernel

/-! ## C47: compare and set -/

/-- Does a key hold the expected value?  An empty expectation also accepts an
absent key. -/
def matches' (st : Store) (now : Int) (k expect : Bytes) : Bool :=
  match kvGet st now 0 k with
  | .value old => decide (old = expect)
  | .notFound => decide (expect = [])
  | _ => false

theorem casLoop_nonatomic {st : Store} {now : Int} {l : List ((Bytes × Bytes) × Bytes)}
    (h : ∀ p ∈ l, kvGet st now 0 p.1.1 ≠ .keyEmpty ∧ kvGet st now 0 p.1.1 ≠ .crash) :
    casLoop st now false l =
      .inr ((l.filter (fun p => matches' st now p.1.1 p.2)).map (·.1),
        l.map (fun p => matches' st now p.1.1 p.2)) := by
  induction l with
  | nil => rfl
  | cons p l ih =>
    obtain ⟨kv, ex⟩ := p
    have ih' := ih (fun x hx => h x (List.mem_cons_of_mem _ hx))
    obtain ⟨h1, h2⟩ := h (kv, ex) (by simp)
    simp only [casLoop, ih']
    simp only at h1 h2
    cases hg : kvGet st now 0 kv.1 with
    | keyEmpty => exact absurd hg h1
    | crash => exact absurd hg h2
    | notFound =>
      by_cases he : ex = []
      · simp [matches', hg, he]
      · simp [matches', hg, he]
    | value v =>
      by_cases he : v = ex
      · simp [matches', hg, he]
      · simp [matches', hg, he]

/-- What a compare-and-set stores for a pair: an empty new value deletes. -/
def casVer (ttl : Int) (v : Bytes) : Ver := if v = [] then .del else putVer ttl v

theorem encodeCas_rec {ts ttl : Int} (h : ValidTs ts) (kv : Bytes × Bytes) :
    encodeCas ts ttl kv = some (Rec.enc ⟨kv.1, ts, casVer ttl kv.2⟩) := by
  unfold encodeCas casVer
  by_cases he : kv.2 = []
  · rw [if_pos (by simp [he]), if_pos he]; exact encodeDelete_rec h _
  · rw [if_neg (by simpa using he), if_neg he]; exact encodePut_rec h _

/-- C47: a non-atomic compare-and-set reports success for exactly the keys
whose newest value equals the expectation, and stores exactly the new versions of
those keys; everything else is unchanged. -/
theorem C47_compare_and_set (st : Store) (h : WFStore st) (now ts ttl : Int)
    (kvs : List (Bytes × Bytes)) (expects : List Bytes) (hts : ValidTs ts) (httl : IsI64 ttl)
    (hne : kvs ≠ []) (hlen : kvs.length = expects.length)
    (hnd : (kvs.map (·.1)).Nodup)
    (hk : ∀ kv ∈ kvs, kv.1 ≠ [] ∧ kvGet st now 0 kv.1 ≠ .crash) :
    ∃ st', writerCas st now ts ttl kvs expects false =
        (.states ((kvs.zip expects).map (fun p => matches' st now p.1.1 p.2)), st') ∧
      WFStore st' ∧
      ∀ r, Stored st' r ↔
        (∃ p ∈ kvs.zip expects, matches' st now p.1.1 p.2 = true ∧
          r = ⟨p.1.1, ts, casVer ttl p.1.2⟩) ∨
        (Stored st r ∧ ¬ (r.ts = ts ∧ ∃ p ∈ kvs.zip expects, matches' st now p.1.1 p.2 = true ∧
          r.key = p.1.1)) := by
  have hg : ∀ p ∈ kvs.zip expects, kvGet st now 0 p.1.1 ≠ .keyEmpty ∧ kvGet st now 0 p.1.1 ≠ .crash := by
    intro p hp
    have hkv := (List.of_mem_zip hp).1
    refine ⟨?_, (hk _ hkv).2⟩
    exact kvGet_ne_keyEmpty (hk _ hkv).1
  let ps := (kvs.zip expects).filter (fun p => matches' st now p.1.1 p.2)
  let rs : List Rec := ps.map (fun p => ⟨p.1.1, ts, casVer ttl p.1.2⟩)
  have hcv : ∀ v, (casVer ttl v).Valid := by
    intro v; unfold casVer; split
    · trivial
    · exact putVer_valid httl v
  have hv : ∀ r ∈ rs, r.Valid := by
    intro r hr
    obtain ⟨p, _, rfl⟩ := List.mem_map.1 hr
    exact ⟨hts, hcv _⟩
  obtain ⟨hw, hs⟩ := stored_batchPut h hv
  have hndz : ((kvs.zip expects).map (fun p => p.1.1)).Nodup := by
    have : (kvs.zip expects).map (fun p => p.1.1) = kvs.map (·.1) := by
      have e : (kvs.zip expects).map Prod.fst = kvs := by
        rw [List.map_fst_zip]; omega
      calc (kvs.zip expects).map (fun p => p.1.1)
          = ((kvs.zip expects).map Prod.fst).map (·.1) := by rw [List.map_map]; rfl
        _ = kvs.map (·.1) := by rw [e]
    rw [this]; exact hnd
  -- lookups in a duplicate-free batch
  have hlast : ∀ (l : List ((Bytes × Bytes) × Bytes)), (l.map (fun p => p.1.1)).Nodup → ∀ k t v,
      lastRec (l.map (fun p => (⟨p.1.1, ts, casVer ttl p.1.2⟩ : Rec))) k t = some v ↔
        t = ts ∧ ∃ p ∈ l, p.1.1 = k ∧ casVer ttl p.1.2 = v := by
    intro l
    induction l with
    | nil => intro _ k t v; simp [lastRec]
    | cons p l ih =>
      intro hn k t v
      rw [List.map_cons, List.nodup_cons] at hn
      rw [List.map_cons, lastRec_cons]
      cases hl : lastRec (l.map (fun p => (⟨p.1.1, ts, casVer ttl p.1.2⟩ : Rec))) k t with
      | some w =>
        simp only
        have hw' := (ih hn.2 k t w).1 hl
        constructor
        · intro h; cases h
          obtain ⟨a, q, b, c⟩ := hw'
          exact ⟨a, q, List.mem_cons_of_mem _ b, c⟩
        · rintro ⟨a, q, b, c, d⟩
          rcases List.mem_cons.1 b with rfl | b
          · obtain ⟨_, q', b', c', _⟩ := hw'
            exact absurd (List.mem_map.2 ⟨q', b', by rw [c', c]⟩) hn.1
          · have := (ih hn.2 k t v).2 ⟨a, q, b, c, d⟩
            rw [hl] at this; exact this
      | none =>
        simp only
        constructor
        · intro h
          split at h
          · rename_i hk; cases h; exact ⟨hk.2.symm, p, by simp, hk.1, rfl⟩
          · cases h
        · rintro ⟨a, q, b, c, d⟩
          rcases List.mem_cons.1 b with rfl | b
          · rw [if_pos ⟨c, a.symm⟩]; simp [d]
          · have := (ih hn.2 k t v).2 ⟨a, q, b, c, d⟩
            rw [hl] at this; cases this
  have hndp : (ps.map (fun p => p.1.1)).Nodup :=
    hndz.sublist (List.filter_sublist.map _)
  refine ⟨batchPut st (rs.map Rec.enc), ?_, hw, ?_⟩
  · unfold writerCas
    rw [if_neg (by simpa using hne), if_neg (by simpa using hlen), casLoop_nonatomic hg]
    simp only
    rw [mapM_some (fun kv => encodeCas_rec hts kv)]
    have hrs : rs.map Rec.enc = (ps.map (·.1)).map
        (fun kv => Rec.enc ⟨kv.1, ts, casVer ttl kv.2⟩) := by
      simp [rs, List.map_map]
    split
    · rename_i he
      have he : ps = [] := by
        rw [List.isEmpty_iff, List.map_eq_nil_iff] at he; exact he
      have e1 : rs = [] := by simp [rs, he]
      rw [e1]
      simp only [List.map_nil, batchPut, List.foldl_nil]
      have : (kvs.zip expects).map (fun p => matches' st now p.1.1 p.2) =
          List.replicate kvs.length false := by
        rw [List.eq_replicate_iff]
        refine ⟨by simp [hlen], fun b hb => ?_⟩
        obtain ⟨p, h1, h2⟩ := List.mem_map.1 hb
        have := (List.filter_eq_nil_iff.1 he) p h1
        rw [h2] at this
        simpa using this
      rw [this]
    · rw [hrs]
  · intro r
    rw [hs r]
    have hp : ∀ p, p ∈ ps ↔ p ∈ kvs.zip expects ∧ matches' st now p.1.1 p.2 = true := by
      intro p; exact List.mem_filter
    cases hl : lastRec rs r.key r.ts with
    | some v =>
      simp only
      obtain ⟨a, p, b, c, d⟩ := (hlast ps hndp r.key r.ts v).1 hl
      obtain ⟨b1, b2⟩ := (hp p).1 b
      constructor
      · intro e
        refine Or.inl ⟨p, b1, b2, ?_⟩
        cases r; simp_all
      · rintro (⟨q, q1, q2, rfl⟩ | ⟨_, hno⟩)
        · have := (hlast ps hndp q.1.1 ts (casVer ttl q.1.2)).2 ⟨rfl, q, (hp q).2 ⟨q1, q2⟩, rfl, rfl⟩
          simp only at hl
          rw [hl] at this
          exact (Option.some.inj this).symm
        · exact absurd ⟨a, p, b1, b2, c.symm⟩ hno
    | none =>
      simp only
      constructor
      · intro e
        refine Or.inr ⟨e, ?_⟩
        rintro ⟨a, p, b1, b2, c⟩
        have := (hlast ps hndp r.key r.ts (casVer ttl p.1.2)).2 ⟨a, p, (hp p).2 ⟨b1, b2⟩, c.symm, rfl⟩
        rw [hl] at this; cases this
      · rintro (⟨q, q1, q2, rfl⟩ | ⟨e, _⟩)
        · have := (hlast ps hndp q.1.1 ts (casVer ttl q.1.2)).2 ⟨rfl, q, (hp q).2 ⟨q1, q2⟩, rfl, rfl⟩
          simp only at hl
          rw [hl] at this; cases this
        · exact e

/-- C47 is false of the code for a batch naming a key twice: two conflicting
swaps from the same old value both report success. -/
theorem C47_duplicate_false :
    (writerCas [] 10 5 0 [([107], [1]), ([107], [2])] [[], []] false).1 = .states [true, true] := by
  decide +kernel

/-- An atomic compare-and-set with any mismatch writes nothing. -/
theorem C47_atomic_all_or_nothing (st : Store) (now ts ttl : Int) (kvs : List (Bytes × Bytes))
    (expects : List Bytes)
    (hbad : ∃ p ∈ kvs.zip expects, matches' st now p.1.1 p.2 = false) :
    (writerCas st now ts ttl kvs expects true).2 = st := by
  have key : ∀ l : List ((Bytes × Bytes) × Bytes),
      (∃ p ∈ l, matches' st now p.1.1 p.2 = false) → ∃ o, casLoop st now true l = .inl o := by
    intro l
    induction l with
    | nil => rintro ⟨p, h, _⟩; simp at h
    | cons p l ih =>
      rintro ⟨q, hq, hm⟩
      obtain ⟨kv, ex⟩ := p
      rcases List.mem_cons.1 hq with rfl | hq
      · simp only [casLoop]
        simp only [matches'] at hm
        cases hg : kvGet st now 0 kv.1 with
        | keyEmpty => exact ⟨_, rfl⟩
        | crash => exact ⟨_, rfl⟩
        | notFound => rw [hg] at hm; simp at hm; simp [hm]
        | value v => rw [hg] at hm; simp at hm; simp [hm]
      · obtain ⟨o, ho⟩ := ih ⟨q, hq, hm⟩
        simp only [casLoop, ho]
        cases kvGet st now 0 kv.1 with
        | keyEmpty => exact ⟨_, rfl⟩
        | crash => exact ⟨_, rfl⟩
        | notFound => by_cases he : ex = [] <;> simp [he]
        | value v => by_cases he : v = ex <;> simp [he]
  obtain ⟨o, ho⟩ := key _ hbad
  unfold writerCas
  split
  · rfl
  · split
    · rfl
    · rw [ho]
      cases o <;> rfl

/-! ## Non-vacuity -/

/-- A history with overwrites, a tombstone, a TTL and neighbouring keys. -/
def sampleOps : List Op :=
  [.put 3 0 [([97], [1]), ([97, 0], [2]), ([98], [3])], .put 5 100 [([97], [9])],
   .delete 0 7 [[98]], .put 9 0 [([99], [])], .deleteRange [100] [101]]

example : ∀ op ∈ sampleOps, op.Valid := by
  intro op h
  simp only [sampleOps, List.mem_cons, List.not_mem_nil, or_false] at h
  rcases h with rfl | rfl | rfl | rfl | rfl
  · exact ⟨by constructor <;> decide, by constructor <;> decide⟩
  · exact ⟨by constructor <;> decide, by constructor <;> decide⟩
  · exact ⟨by decide, by decide⟩
  · exact ⟨by constructor <;> decide, by constructor <;> decide⟩
  · show ([100] : Bytes) < [101]
    decide

example : kvScan (sampleOps.foldl exec []) 50 0 [97] [122] =
    .ok [([97], 5, [9]), ([97, 0], 3, [2]), ([99], 9, [])] := by decide +kernel
example : kvScan (sampleOps.foldl exec []) 101 0 [97] [122] =
    .ok [([97, 0], 3, [2]), ([99], 9, [])] := by decide +kernel
example : kvScan (sampleOps.foldl exec []) 50 6 [97] [122] =
    .ok [([97], 5, [9]), ([97, 0], 3, [2]), ([98], 3, [3])] := by decide +kernel
example : kvMaxKey (sampleOps.foldl exec []) 50 6 [97] [122] = .ok (some [98]) := by decide +kernel
example : (writerCas (sampleOps.foldl exec []) 50 20 0 [([97], []), ([99], [4])] [[9], [1]] false).1 =
    .states [true, false] := by decide +kernel
example : (writerPutIfAbsent (sampleOps.foldl exec []) 50 20 0 [([97], [5]), ([98], [4])] false).1 =
    .states [false, true] := by decide +kernel
example : WritesAbove 6 (.put 9 0 [([97], [1])]) := by
  show (6 : Int) < 9
  decide

end Verif.Mvcc
