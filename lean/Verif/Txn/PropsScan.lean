import Verif.Txn.ScanStream
import Verif.Txn.PropsRead

/-! # Transactional scans: properties C10 and C52 -/

namespace Verif.Txn
open Verif.Codec

/-! ## Specification -/

/-- The timestamp whose snapshot a read uses: its start timestamp under snapshot
isolation, the largest possible one under read committed. -/
def readTs : Iso → Int → Int
  | .si, ts => ts
  | .rc, _ => maxVer

/-- Lock `l` stands in the way of a read.  Under read committed only prewritten locks
of pessimistic transactions do. -/
def BlocksRead : Iso → LockInfo → Int → List Int → Prop
  | .si, l, ts, resolved => Blocks l ts resolved
  | .rc, l, ts, resolved => l.lockTs ∉ resolved ∧ l.minCommitTs ≤ ts ∧ l.type ≠ .lock ∧ 0 < l.forUpdateTs ∧
      l.forUpdateTs < ts

/-- A scan request. -/
structure ScanReq where
  iso : Iso
  ts : Int
  resolved : List Int
  keyOnly : Bool
  start : Bytes
  stop : Bytes

def ScanReq.inRange (q : ScanReq) (k : Bytes) : Prop := ¬ k < q.start ∧ k < q.stop

/-- `kvs` is the right answer to `q` in state `st` for the keys that satisfy `B`: in
ascending order and without repetition, exactly the keys of the range that the
snapshot holds, with their values, and no lock in the way on any key. -/
structure Answers (st : State) (q : ScanReq) (B : Bytes → Prop) (kvs : List (Bytes × Bytes)) : Prop where
  ascending : kvs.Pairwise (fun a b => a.1 < b.1)
  sound : ∀ k v, (k, v) ∈ kvs → B k ∧ q.inRange k ∧
    ∃ v', Snapshot st k (readTs q.iso q.ts) (some v') ∧ v = if q.keyOnly then [] else v'
  complete : ∀ k, B k → q.inRange k → ∀ v, Snapshot st k (readTs q.iso q.ts) (some v) → k ∈ kvs.map Prod.fst
  unblocked : ∀ k, B k → q.inRange k → ∀ l, LockOn st k l → ¬ BlocksRead q.iso l q.ts q.resolved

/-! ## C10 -/

theorem lockConflict_iff_read {l : LockInfo} (hl : 0 < l.lockTs) {iso : Iso} {ts : Int} {resolved : List Int} :
    lockConflict l iso ts resolved = true ↔ BlocksRead iso l ts resolved := by
  cases iso with
  | si => exact lockConflict_iff hl
  | rc =>
    simp only [lockConflict, BlocksRead]
    by_cases h1 : l.lockTs ∈ resolved
    · have : resolved ≠ [] := by rintro rfl; simp at h1
      simp [h1, this]
    · simp only [h1, and_false, if_false, not_false_eq_true, true_and]
      by_cases h2 : l.minCommitTs > ts
      · rw [if_pos h2]
        simp only [Bool.false_eq_true, false_iff]
        omega
      · rw [if_neg h2, if_pos hl]
        by_cases h3 : l.forUpdateTs > 0 <;> by_cases h4 : l.type = .lock <;> simp [h3, h4] <;> omega

/-- The context of a scan stream. -/
def ScanReq.ctx (q : ScanReq) (st : State) : ScanCtx := ⟨st, st.data, q.iso, q.ts, q.resolved, q.start, q.stop⟩

theorem ScanReq.ctx_ok {D : Bytes → TsOwner} {st : State} (h : Good D st) (q : ScanReq) (hs : q.start ≠ []) :
    (q.ctx st).Ok :=
  ⟨h.inv, hs, fun k t w hw hp hsv => (h.dinv k).writeData t w hw hp hsv⟩

theorem ScanReq.covered {D : Bytes → TsOwner} {st : State} (h : Good D st) (q : ScanReq) (hs : q.start ≠ [])
    {B : Bytes → Prop} {kvs : List (Bytes × Bytes)} (hc : (q.ctx st).Covered q.keyOnly B kvs) : Answers st q B kvs := by
  have hok := q.ctx_ok h hs
  have hT : (q.ctx st).T = readTs q.iso q.ts := by
    simp only [ScanCtx.T, ScanReq.ctx, iterTs]; cases q.iso <;> rfl
  refine ⟨hc.asc, ?_, ?_, ?_⟩
  · intro k v hkv
    obtain ⟨h1, h2, h3, h4⟩ := hc.sound _ hkv
    have := ScanCtx.val_snapshot hok rfl h2
    rw [hT, valueOf, if_neg h3] at this
    exact ⟨h1, h2, _, this, h4⟩
  · intro k hb hr v hv
    refine (hc.compl k hb hr).2 ?_
    have := ScanCtx.val_snapshot hok rfl (c := q.ctx st) hr
    rw [hT] at this
    intro he
    rw [he, valueOf, if_pos rfl] at this
    cases this.unique hv
  · intro k hb hr l hl hbl
    have h1 := (hc.compl k hb hr).1 l (ScanCtx.mem_L0.2 ⟨hl, hr⟩)
    have hpos := ((h.inv k).lock l (lockOn_iff.1 hl)).ts.1
    have := (lockConflict_iff_read (iso := q.iso) (ts := q.ts) (resolved := q.resolved) hpos).2 hbl
    rw [show lockConflict l q.iso q.ts q.resolved = false from h1] at this
    cases this

/-- The pairs a sequence of responses returned. -/
def returned (rs : List ScanResp) : List (Bytes × Bytes) := rs.flatMap (·.kvs)

/-- A page ends as soon as its limit is reached, and with `has_more` and no lock
reported only then. -/
def PageLimit (full : List (Bytes × Bytes) → Bool) (r : ScanResp) : Prop :=
  (∀ a, a <+: r.kvs → a ≠ [] → a ≠ r.kvs → full a = false) ∧ (r.result = none → r.hasMore = true → full r.kvs = true)

/-- C10: a scan stream opened in a state reached by disciplined clients, and continued
by any number of requests while other clients go on (each later page reads the data of
a later state).  Every request answers, and after the last one `r`:
* if it says the scan is complete, the pairs returned by all pages together are the
  right answer for the whole range;
* if it says there is more, they are the right answer for the keys up to its end key,
  which is the last key returned, and the page made progress;
* if it reports a lock, that lock is on a key of the range and in the way, and the
  pairs are the right answer for the keys before it. -/
theorem C10_scan {D : Bytes → TsOwner} {st : State} (h : GcReachable D st) (q : ScanReq) (hs : q.start ≠ [])
    (full : List (Bytes × Bytes) → Bool) (ps : List (List Req × (List (Bytes × Bytes) → Bool)))
    (hps : ∀ p ∈ ps, Disciplined D st p.1) :
    ∃ rs : List ScanResp,
      scanStream st q.iso q.ts q.resolved q.keyOnly q.start q.stop full
        (ps.map fun p => ((run st p.1).data, p.2)) = rs.map .ok ∧
      (∃ r, rs.getLast? = some r ∧
        ((r.result = none ∧ r.hasMore = false ∧ Answers st q (fun _ => True) (returned rs)) ∨
         (r.result = none ∧ r.hasMore = true ∧ r.kvs.getLast?.map Prod.fst = some r.endKey ∧
            Answers st q (fun k => ¬ r.endKey < k) (returned rs)) ∨
         (∃ k l, r.result = some (.locked l) ∧ LockOn st k l ∧ q.inRange k ∧ BlocksRead q.iso l q.ts q.resolved ∧
            Answers st q (fun k' => k' < k) (returned rs)))) ∧
      ∀ x ∈ rs.zip (full :: ps.map (·.2)), PageLimit x.2 x.1 := by
  have hok := q.ctx_ok h.good hs
  obtain ⟨rs, h1, h2, h3, h4⟩ := ScanCtx.stream_spec hok rfl (ko := q.keyOnly) full
    (ps.map fun p => ((run st p.1).data, p.2)) (by
      intro p hp
      obtain ⟨x, hx, rfl⟩ := List.mem_map.1 hp
      intro k t w hw hop
      exact run_keepData h.good (hps x hx) (k := k) (t := t) (w := w) hw (Or.inl hop))
  refine ⟨rs, h1, ?_, ?_⟩
  · obtain ⟨r, hr⟩ : ∃ r, rs.getLast? = some r := ⟨_, List.getLast?_eq_some_getLast h2⟩
    refine ⟨r, hr, ?_⟩
    rcases h3 r hr with ⟨a, b, d⟩ | ⟨a, b, _, d, e⟩ | ⟨l, a, m, b, d, e⟩
    · exact Or.inl ⟨a, b, q.covered h.good hs d⟩
    · exact Or.inr (Or.inl ⟨a, b, d, q.covered h.good hs e⟩)
    · obtain ⟨hl, hr⟩ := ScanCtx.mem_L0.1 b
      have hpos := ((h.good.inv m).lock l (lockOn_iff.1 hl)).ts.1
      exact Or.inr (Or.inr ⟨m, l, a, hl, hr, (lockConflict_iff_read hpos).1 d, q.covered h.good hs e⟩)
  · intro x hx
    have hz : rs.zip (full :: ps.map (·.2)) =
        (rs.zip (((q.ctx st).live, full) :: ps.map fun p => ((run st p.1).data, p.2))).map (fun y => (y.1, y.2.2)) := by
      have : (full :: ps.map (·.2)) =
          (((q.ctx st).live, full) :: ps.map fun p => ((run st p.1).data, p.2)).map (·.2) := by simp
      rw [this, List.zip_map_right]
      rfl
    rw [hz] at hx
    obtain ⟨y, hy, rfl⟩ := List.mem_map.1 hx
    exact h4 y hy

/-- C10, agreement with point reads: a key of the range that a scan returned or passed
over is answered by a point read at the same timestamp with the same value, absent
keys with the empty value. -/
theorem C10_agrees_with_get {D : Bytes → TsOwner} {st : State} (h : GcReachable D st) {q : ScanReq} {B : Bytes → Prop}
    {kvs : List (Bytes × Bytes)} (ha : Answers st q B kvs) (hiso : q.iso = .si) (hko : q.keyOnly = false)
    {keys : List Bytes} (hv : (Req.get .si q.ts q.resolved keys).Valid) (hk : ∀ k ∈ keys, B k ∧ q.inRange k) :
    ∃ resp, (step st (.get .si q.ts q.resolved keys)).2 = .get (.ok resp) ∧ resp.result = none ∧
      resp.kvs.map Prod.fst = keys ∧ ∀ k v, (k, v) ∈ resp.kvs → v ≠ [] ∧ (k, v) ∈ kvs ∨ v = [] ∧ k ∉ kvs.map Prod.fst := by
  obtain ⟨resp, h1, h2, h3, _⟩ := C09_txnGet h hv
  rcases h3 with ⟨h3, h4, h5⟩ | ⟨k, hkm, l, h3, h4, h5⟩
  · refine ⟨resp, h1, h3, h4, ?_⟩
    intro k v hkv
    have hsn := h2 _ hkv
    simp only at hsn
    have hmem : k ∈ keys := by rw [← h4]; exact List.mem_map.2 ⟨_, hkv, rfl⟩
    obtain ⟨hB, hr⟩ := hk k hmem
    by_cases hve : v = []
    · right
      refine ⟨hve, ?_⟩
      intro hin
      obtain ⟨⟨k', v'⟩, hin', rfl⟩ := List.mem_map.1 hin
      obtain ⟨_, _, v'', hs, _⟩ := ha.sound _ _ hin'
      simp only [hiso, readTs] at hs
      rw [hve, valueOf, if_pos rfl] at hsn
      cases hs.unique hsn
    · left
      refine ⟨hve, ?_⟩
      rw [valueOf, if_neg hve] at hsn
      have hc := ha.complete k hB hr v (by simpa only [hiso, readTs] using hsn)
      obtain ⟨⟨k', v'⟩, hin, rfl⟩ := List.mem_map.1 hc
      obtain ⟨_, _, v'', hs, he⟩ := ha.sound _ _ hin
      simp only [hiso, readTs] at hs
      have := hs.unique hsn
      rw [hko] at he
      simp only [Bool.false_eq_true, if_false] at he
      cases this
      rw [he] at hin
      exact hin
  · exfalso
    obtain ⟨hB, hr⟩ := hk k hkm
    refine ha.unblocked k hB hr l h4 ?_
    rw [hiso]
    exact h5

/-- C10, pages of one key of the sample state: two keys, then the end. -/
example :
    scanStream sampleState .si 15 [] false [1] [2] (fun a => a.length ≥ 1)
      [(sampleState.data, fun a => a.length ≥ 1), (sampleState.data, fun a => a.length ≥ 1)] =
    [.ok { kvs := [(kA, vA)], hasMore := true, endKey := kA }, .ok { kvs := [(kB, vLong)], hasMore := true, endKey := kB },
     .ok {}] := by decide +kernel

/-- C10, a lock met after the first key; the deleted key is passed over. -/
example :
    (∃ l, scanStream sampleState .si 41 [] false [1] [2] (fun a => a.length ≥ 5) [] =
      [.ok { result := some (.locked l), hasMore := true }]) ∧
    scanStream sampleState .si 35 [] true [1] [2] (fun a => a.length ≥ 5) [] = [.ok { kvs := [(kB, [])] }] :=
  ⟨⟨(sampleState.lock.get kB).get (by decide +kernel), by decide +kernel⟩, by decide +kernel⟩

/-- C10, hypotheses met: the second page is asked for after another transaction has
written `kB`. -/
example : Reachable sampleRoles.spec sampleState ∧ Disciplined sampleRoles.spec sampleState [.commit 40 45 [kB]] ∧
    (run sampleState [.commit 40 45 [kB]]).write ≠ sampleState.write ∧
    scanStream sampleState .si 30 [] false [1] [2] (fun a => a.length ≥ 1)
      ([(([.commit 40 45 [kB]] : List Req), fun a => decide (a.length ≥ 9))].map fun p => ((run sampleState p.1).data, p.2)) =
    [.ok { kvs := [(kA, vA)], hasMore := true, endKey := kA }, .ok { kvs := [(kB, vLong)] }] :=
  ⟨sample_reachable, disciplinedB_sound (by decide +kernel), by decide +kernel, by decide +kernel⟩

/-! ## C52 -/

/-- The locks a `TxnScanLock` over `[start, stop)` asks for. -/
def LockWanted (st : State) (maxTs : Int) (start stop : Bytes) (l : LockInfo) : Prop :=
  LockOn st l.key l ∧ ¬ l.key < start ∧ l.key < stop ∧ l.lockTs < maxTs

/-- Test of the loop. -/
def wantB (maxTs : Int) (e : Bytes × LockInfo) : Bool := decide (0 < e.2.lockTs ∧ e.2.lockTs < maxTs)

theorem scanLockLoop_spec {maxTs : Int} {full : List LockInfo → Bool} (L : List (Bytes × LockInfo))
    (hpos : ∀ e ∈ L, 0 < e.2.lockTs) (acc : List LockInfo) (ek : Bytes) :
    ∃ A more ek' it, scanLockLoop 0 maxTs full L acc ek = (acc ++ A, more, ek', it) ∧
      ((more = false ∧ A = (L.filter (wantB maxTs)).map (·.2) ∧ it = []) ∨
       (more = true ∧ full (acc ++ A) = true ∧ ∃ pre e post, L = pre ++ e :: post ∧ wantB maxTs e = true ∧
          A = ((pre ++ [e]).filter (wantB maxTs)).map (·.2) ∧ it = e :: post ∧ ek' = e.2.key)) := by
  induction L generalizing acc ek with
  | nil => exact ⟨[], false, ek, [], by simp [scanLockLoop], Or.inl ⟨rfl, rfl, rfl⟩⟩
  | cons x L ih =>
    obtain ⟨k, l⟩ := x
    have hp := hpos _ List.mem_cons_self
    simp only at hp
    have ih := ih (fun e he => hpos e (List.mem_cons_of_mem _ he))
    simp only [scanLockLoop]
    rw [if_neg (by omega)]
    by_cases hw : l.lockTs < maxTs
    · have hwb : wantB maxTs (k, l) = true := by simp [wantB, hp, hw]
      rw [if_neg (by omega)]
      by_cases hf : full (acc ++ [l]) = true
      · rw [if_pos hf]
        exact ⟨[l], true, l.key, (k, l) :: L, rfl, Or.inr ⟨rfl, hf, [], (k, l), L, rfl, hwb, by simp [hwb], rfl, rfl⟩⟩
      · rw [if_neg hf]
        obtain ⟨A, more, ek', it, h1, h2⟩ := ih (acc ++ [l]) l.key
        refine ⟨l :: A, more, ek', it, by rw [h1]; simp, ?_⟩
        rcases h2 with ⟨h2, h3, h4⟩ | ⟨h2, h3, pre, e, post, h4, h5, h6, h7, h8⟩
        · exact Or.inl ⟨h2, by simp [hwb, h3], h4⟩
        · exact Or.inr ⟨h2, by simpa using h3, (k, l) :: pre, e, post, by simp [h4], h5, by simp [hwb, h6], h7, h8⟩
    · have hwb : wantB maxTs (k, l) = false := by simp [wantB, hw]
      rw [if_pos (by omega)]
      obtain ⟨A, more, ek', it, h1, h2⟩ := ih acc l.key
      refine ⟨A, more, ek', it, h1, ?_⟩
      rcases h2 with ⟨h2, h3, h4⟩ | ⟨h2, h3, pre, e, post, h4, h5, h6, h7, h8⟩
      · exact Or.inl ⟨h2, by simp [hwb, h3], h4⟩
      · exact Or.inr ⟨h2, h3, (k, l) :: pre, e, post, by simp [h4], h5, by simp [hwb, h6], h7, h8⟩

/-- The list of locks in the range. -/
def lockList (st : State) (maxTs : Int) (start stop : Bytes) : List LockInfo :=
  ((scanLockStart st start stop).filter (wantB maxTs)).map (·.2)

theorem scanLockStart_facts {D : Bytes → TsOwner} {st : State} (h : Good D st) (start stop : Bytes) :
    (∀ e ∈ scanLockStart st start stop, 0 < e.2.lockTs ∧ e.2.key = e.1) ∧ Asc (scanLockStart st start stop) ∧
    ∀ k l, (k, l) ∈ scanLockStart st start stop ↔ LockOn st k l ∧ ¬ k < start ∧ k < stop := by
  refine ⟨?_, asc_scanLocks st start stop, fun k l => mem_scanLocks⟩
  rintro ⟨k, l⟩ he
  have := (mem_scanLocks.1 he).1
  have := (h.inv k).lock l (lockOn_iff.1 this)
  exact ⟨this.ts.1, this.key⟩

theorem lockList_facts {D : Bytes → TsOwner} {st : State} (h : Good D st) (maxTs : Int) (start stop : Bytes) :
    (lockList st maxTs start stop).Pairwise (fun a b => a.key < b.key) ∧
    ∀ l, l ∈ lockList st maxTs start stop ↔ LockWanted st maxTs start stop l := by
  obtain ⟨h1, h2, h3⟩ := scanLockStart_facts h start stop
  constructor
  · rw [lockList, List.pairwise_map]
    refine List.Pairwise.imp_of_mem ?_ (List.Pairwise.filter _ h2)
    intro a b ha hb hab
    rw [(h1 a (List.mem_filter.1 ha).1).2, (h1 b (List.mem_filter.1 hb).1).2]
    exact hab
  · intro l
    simp only [lockList, List.mem_map, List.mem_filter]
    constructor
    · rintro ⟨⟨k, l'⟩, ⟨hm, hw⟩, rfl⟩
      have hk := (h1 _ hm).2
      simp only at hk
      subst hk
      simp only [wantB, decide_eq_true_eq] at hw
      obtain ⟨a, b, d⟩ := (h3 _ _).1 hm
      exact ⟨a, b, d, hw.2⟩
    · rintro ⟨a, b, d, e⟩
      have hm := (h3 _ _).2 ⟨a, b, d⟩
      exact ⟨(l.key, l), ⟨hm, by simp [wantB, e, (h1 _ hm).1]⟩, rfl⟩

/-- C52: one `TxnScanLock` request.  It returns, in ascending order of the keys and
without repetition, locks of the range below the given timestamp; all of them when it
does not say that there are more, otherwise all up to the end key, which is the key of
the last lock returned, and the limit of the page is reached. -/
theorem C52_page {D : Bytes → TsOwner} {st : State} (h : GcReachable D st) (maxTs : Int) (start stop : Bytes)
    (full : List LockInfo → Bool) :
    ∃ r, scanLockPages maxTs [full] (scanLockStart st start stop) = [r] ∧
      r.locks.Pairwise (fun a b => a.key < b.key) ∧
      (∀ l ∈ r.locks, LockWanted st maxTs start stop l) ∧
      (r.hasMore = false → ∀ l, LockWanted st maxTs start stop l → l ∈ r.locks) ∧
      (r.hasMore = true → full r.locks = true ∧ r.locks.getLast?.map (·.key) = some r.endKey ∧
        ∀ l, LockWanted st maxTs start stop l → ¬ r.endKey < l.key → l ∈ r.locks) := by
  obtain ⟨f1, f2, f3⟩ := scanLockStart_facts h.good start stop
  obtain ⟨g1, g2⟩ := lockList_facts h.good maxTs start stop
  obtain ⟨A, more, ek, it, e1, e2⟩ := scanLockLoop_spec (maxTs := maxTs) (full := full) _ (fun e he => (f1 e he).1) [] []
  refine ⟨⟨[] ++ A, more, ek⟩, by simp only [scanLockPages, scanLockPage, e1], ?_⟩
  simp only [List.nil_append] at e2 ⊢
  rcases e2 with ⟨rfl, e3, _⟩ | ⟨rfl, e3, pre, e, post, e4, e5, e6, e7, e8⟩
  · have : A = lockList st maxTs start stop := e3
    subst this
    exact ⟨g1, fun l hl => (g2 l).1 hl, fun _ l hl => (g2 l).2 hl, by simp⟩
  · have hsplit : lockList st maxTs start stop = A ++ (post.filter (wantB maxTs)).map (·.2) := by
      rw [lockList, e4, e6]
      simp [List.filter_append, List.filter_cons]
      split <;> simp
    have hlast : A.getLast?.map (·.key) = some ek := by
      rw [e6, e8]
      simp [List.filter_append, e5]
    rw [hsplit] at g1 g2
    refine ⟨(List.pairwise_append.1 g1).1, fun l hl => (g2 l).1 (List.mem_append_left _ hl), by simp, fun _ => ⟨e3, hlast, ?_⟩⟩
    intro l hl hk
    rcases List.mem_append.1 ((g2 l).2 hl) with hm | hm
    · exact hm
    · exfalso
      apply hk
      have he : e.2 ∈ A := by rw [e6]; simp [List.filter_append, e5]
      rw [e8]
      exact (List.pairwise_append.1 g1).2.2 _ he _ hm

/-- C52, the full claim for streams, that later pages go on after the last lock
returned, is false: the lock at the end of a page is returned again by the next page,
and with a limit of one the stream never gets past its first lock, however many
requests are made. -/
theorem C52_stream_false {D : Bytes → TsOwner} {st : State} (h : GcReachable D st) {maxTs : Int} {start stop : Bytes}
    {l : LockInfo} (hl : LockWanted st maxTs start stop l) (n : Nat) :
    ∃ l' ek, LockWanted st maxTs start stop l' ∧
      scanLockPages maxTs (List.replicate n (fun a => decide (a.length ≥ 1))) (scanLockStart st start stop) =
        List.replicate n ⟨[l'], true, ek⟩ := by
  obtain ⟨f1, f2, f3⟩ := scanLockStart_facts h.good start stop
  obtain ⟨g1, g2⟩ := lockList_facts h.good maxTs start stop
  have hone : ∀ (L : List (Bytes × LockInfo)) (e : Bytes × LockInfo) (post), (∀ x ∈ L, wantB maxTs x = false ∧ 0 < x.2.lockTs) →
      wantB maxTs e = true → ∀ ek, scanLockLoop 0 maxTs (fun a => decide (a.length ≥ 1)) (L ++ e :: post) [] ek =
        ([e.2], true, e.2.key, e :: post) := by
    intro L
    induction L with
    | nil =>
      intro e post _ he ek
      simp only [wantB, decide_eq_true_eq] at he
      simp only [List.nil_append, scanLockLoop]
      rw [if_neg (by omega), if_neg (by omega)]
      simp
    | cons x L ih =>
      intro e post hx he ek
      obtain ⟨hx1, hx2⟩ := hx x List.mem_cons_self
      simp only [wantB, decide_eq_false_iff_not] at hx1
      simp only [List.cons_append, scanLockLoop]
      rw [if_neg (by omega), if_pos (by omega)]
      exact ih e post (fun y hy => hx y (List.mem_cons_of_mem _ hy)) he _
  have hsplit : ∃ L e post, scanLockStart st start stop = L ++ e :: post ∧ (∀ x ∈ L, wantB maxTs x = false) ∧
      wantB maxTs e = true := by
    have hm := (g2 l).2 hl
    simp only [lockList, List.mem_map] at hm
    obtain ⟨e, he, _⟩ := hm
    cases hf : (scanLockStart st start stop).find? (wantB maxTs) with
    | none =>
      rw [List.find?_eq_none] at hf
      exact absurd (List.mem_filter.1 he).2 (hf e (List.mem_filter.1 he).1)
    | some e' =>
      obtain ⟨a, as, bs, b, c⟩ := List.find?_eq_some_iff_append.1 hf
      exact ⟨as, e', bs, b, fun x hx => by simpa using c x hx, a⟩
  obtain ⟨L, e, post, s1, s2, s3⟩ := hsplit
  refine ⟨e.2, e.2.key, ?_, ?_⟩
  · refine (g2 _).1 ?_
    simp only [lockList, s1]
    simp [List.filter_append, s3]
  · have hrest : ∀ n, scanLockPages maxTs (List.replicate n (fun a => decide (a.length ≥ 1))) (e :: post) =
        List.replicate n ⟨[e.2], true, e.2.key⟩ := by
      intro n
      induction n with
      | zero => rfl
      | succ n ih =>
        have := hone [] e post (by simp) s3 []
        simp only [List.nil_append] at this
        simp only [List.replicate_succ, scanLockPages, scanLockPage, this, ih]
    cases n with
    | zero => rfl
    | succ n =>
      have := hone L e post (fun x hx => ⟨s2 x hx, (f1 x (by rw [s1]; simp [hx])).1⟩) s3 []
      simp only [List.replicate_succ, scanLockPages, scanLockPage, s1, this, hrest n]

/-- The pages of a stream put together by a client that knows of the repetition: the
first lock of every later page is dropped. -/
def joinPages : List ScanLockResp → List LockInfo
  | [] => []
  | r :: rs => r.locks ++ rs.flatMap (·.locks.tail)

theorem scanLockPages_spec {maxTs : Int} {L : List (Bytes × LockInfo)} (hpos : ∀ e ∈ L, 0 < e.2.lockTs)
    (ps : List (List LockInfo → Bool)) {pre : List (Bytes × LockInfo)} {e : Bytes × LockInfo}
    {post : List (Bytes × LockInfo)} (hL : L = pre ++ e :: post) (he : wantB maxTs e = true) :
    ((∀ r ∈ scanLockPages maxTs ps (e :: post), r.hasMore = true) ∧
      ∃ pre' e' post', L = pre' ++ e' :: post' ∧
        ((pre ++ [e]).filter (wantB maxTs)).map (·.2) ++
          (scanLockPages maxTs ps (e :: post)).flatMap (·.locks.tail) =
          ((pre' ++ [e']).filter (wantB maxTs)).map (·.2) ∧
        ((∀ f ∈ ps, ∀ a, f a = true → 2 ≤ a.length) → post'.length + ps.length ≤ post.length)) ∨
    ∃ rs r rest, scanLockPages maxTs ps (e :: post) = rs ++ r :: rest ∧ r.hasMore = false ∧
      (∀ x ∈ rs, x.hasMore = true) ∧
      ((pre ++ [e]).filter (wantB maxTs)).map (·.2) ++ (rs ++ [r]).flatMap (·.locks.tail) =
        (L.filter (wantB maxTs)).map (·.2) := by
  induction ps generalizing pre e post with
  | nil =>
    left
    exact ⟨by simp [scanLockPages], pre, e, post, hL, by simp [scanLockPages], by simp⟩
  | cons f ps ih =>
    have hpos' : ∀ x ∈ e :: post, 0 < x.2.lockTs := fun x hx => hpos x (by rw [hL]; exact List.mem_append_right _ hx)
    obtain ⟨A, more, ek, it, h1, h2⟩ := scanLockLoop_spec (maxTs := maxTs) (full := f) (e :: post) hpos' [] []
    simp only [List.nil_append] at h1 h2
    simp only [scanLockPages, scanLockPage, h1]
    rcases h2 with ⟨rfl, rfl, rfl⟩ | ⟨rfl, h3, pre1, e1, post1, h4, h5, h6, rfl, h7⟩
    · right
      refine ⟨[], _, _, rfl, rfl, by simp, ?_⟩
      rw [hL]
      simp [List.filter_append, he]
    · cases pre1 with
      | nil =>
        simp only [List.nil_append, List.cons.injEq] at h4
        obtain ⟨rfl, rfl⟩ := h4
        have hA : A = [e.2] := by rw [h6]; simp [he]
        subst hA
        rcases ih hL he with ⟨a1, pre', e', post', a2, a3, a4⟩ | ⟨rs, r, rest, a1, a2, a3, a4⟩
        · left
          refine ⟨?_, pre', e', post', a2, by simpa using a3, ?_⟩
          · intro x hx
            rcases List.mem_cons.1 hx with rfl | hx
            · rfl
            · exact a1 x hx
          · intro hf
            have := hf f List.mem_cons_self _ h3
            simp at this
        · right
          refine ⟨⟨[e.2], true, ek⟩ :: rs, r, rest, by rw [a1]; rfl, a2, ?_, by simpa using a4⟩
          intro x hx
          rcases List.mem_cons.1 hx with rfl | hx
          · rfl
          · exact a3 x hx
      | cons x pre1 =>
        simp only [List.cons_append, List.cons.injEq] at h4
        obtain ⟨rfl, rfl⟩ := h4
        have hA : A = e.2 :: ((pre1 ++ [e1]).filter (wantB maxTs)).map (·.2) := by rw [h6]; simp [he]
        subst hA
        have hL' : L = (pre ++ e :: pre1) ++ e1 :: post1 := by rw [hL]; simp
        have hjoin : ((pre ++ e :: pre1 ++ [e1]).filter (wantB maxTs)).map (·.2) =
            ((pre ++ [e]).filter (wantB maxTs)).map (·.2) ++ ((pre1 ++ [e1]).filter (wantB maxTs)).map (·.2) := by
          simp [List.filter_append, he]
        rcases ih hL' h5 with ⟨a1, pre', e', post', a2, a3, a4⟩ | ⟨rs, r, rest, a1, a2, a3, a4⟩
        · left
          refine ⟨?_, pre', e', post', a2, ?_, ?_⟩
          · intro x hx
            rcases List.mem_cons.1 hx with rfl | hx
            · rfl
            · exact a1 x hx
          · rw [hjoin] at a3
            rw [← a3]
            simp
          · intro hf
            have := a4 (fun g hg => hf g (List.mem_cons_of_mem _ hg))
            simp only [List.length_append, List.length_cons]
            omega
        · right
          refine ⟨⟨_, true, ek⟩ :: rs, r, rest, by rw [a1]; rfl, a2, ?_, ?_⟩
          · intro x hx
            rcases List.mem_cons.1 hx with rfl | hx
            · rfl
            · exact a3 x hx
          · rw [hjoin] at a4
            rw [← a4]
            simp

theorem first_unique {xs xs' rest rest' : List ScanLockResp} {x x' : ScanLockResp} (h : xs ++ x :: rest = xs' ++ x' :: rest')
    (hx : x.hasMore = false) (hx' : x'.hasMore = false) (hs : ∀ a ∈ xs, a.hasMore = true) (hs' : ∀ a ∈ xs', a.hasMore = true) :
    xs = xs' ∧ x = x' := by
  induction xs generalizing xs' with
  | nil =>
    cases xs' with
    | nil => simp only [List.nil_append, List.cons.injEq] at h; exact ⟨rfl, h.1⟩
    | cons a l =>
      simp only [List.nil_append, List.cons_append, List.cons.injEq] at h
      have := hs' a List.mem_cons_self
      rw [← h.1, hx] at this; cases this
  | cons b m ih =>
    cases xs' with
    | nil =>
      simp only [List.nil_append, List.cons_append, List.cons.injEq] at h
      have := hs b List.mem_cons_self
      rw [h.1, hx'] at this; cases this
    | cons a l =>
      simp only [List.cons_append, List.cons.injEq] at h
      obtain ⟨e1, e2⟩ := ih h.2 (fun a ha => hs a (List.mem_cons_of_mem _ ha)) (fun a ha => hs' a (List.mem_cons_of_mem _ ha))
      exact ⟨by rw [h.1, e1], e2⟩

/-- C52 for streams (partial): when a stream ends, the locks it returned, without the
first lock of each later page, are exactly the locks of the range in ascending order,
so none is lost.  When each page takes at least two locks a stream ends within as many
requests as there are locks, plus one.  Missing: no repetition, and that a stream of
pages of one lock ends (`C52_stream_false`). -/
theorem C52_stream_partial {D : Bytes → TsOwner} {st : State} (h : GcReachable D st) (maxTs : Int) (start stop : Bytes)
    (ps : List (List LockInfo → Bool)) :
    (∀ rs r rest, scanLockPages maxTs ps (scanLockStart st start stop) = rs ++ r :: rest → r.hasMore = false →
      (∀ x ∈ rs, x.hasMore = true) →
      (joinPages (rs ++ [r])).Pairwise (fun a b => a.key < b.key) ∧
      ∀ l, l ∈ joinPages (rs ++ [r]) ↔ LockWanted st maxTs start stop l) ∧
    ((∀ f ∈ ps, ∀ a, f a = true → 2 ≤ a.length) → st.lock.l.length < ps.length →
      ∃ r ∈ scanLockPages maxTs ps (scanLockStart st start stop), r.hasMore = false) := by
  obtain ⟨f1, f2, f3⟩ := scanLockStart_facts h.good start stop
  obtain ⟨g1, g2⟩ := lockList_facts h.good maxTs start stop
  have hlen : (scanLockStart st start stop).length ≤ st.lock.l.length :=
    Nat.le_trans (List.Sublist.length_le (List.takeWhile_sublist _)) (List.Sublist.length_le (List.dropWhile_sublist _))
  cases ps with
  | nil =>
    refine ⟨?_, by simp⟩
    intro rs r rest he
    simp [scanLockPages] at he
  | cons f ps =>
    obtain ⟨A, more, ek, it, h1, h2⟩ :=
      scanLockLoop_spec (maxTs := maxTs) (full := f) _ (fun e he => (f1 e he).1) [] []
    simp only [List.nil_append] at h1 h2
    simp only [scanLockPages, scanLockPage, h1]
    rcases h2 with ⟨rfl, e3, _⟩ | ⟨rfl, e3, pre, e, post, e4, e5, e6, rfl, e8⟩
    · refine ⟨?_, fun _ _ => ⟨_, List.mem_cons_self, rfl⟩⟩
      intro rs r rest he hr hrs
      obtain ⟨rfl, rfl⟩ := first_unique (xs := rs) (xs' := []) he.symm hr rfl hrs (by simp)
      have : A = lockList st maxTs start stop := e3
      simp only [List.nil_append, joinPages, List.flatMap_nil, List.append_nil, this]
      exact ⟨g1, g2⟩
    · have hsp := scanLockPages_spec (maxTs := maxTs) (fun e he => (f1 e he).1) ps e4 e5
      rcases hsp with ⟨a1, pre', e', post', a2, a3, a4⟩ | ⟨rs0, r0, rest0, a1, a2, a3, a4⟩
      · constructor
        · intro rs r rest he hr hrs
          exfalso
          have hm : r ∈ rs ++ r :: rest := by simp
          rw [← he] at hm
          rcases List.mem_cons.1 hm with rfl | hm
          · cases hr
          · rw [a1 r hm] at hr; cases hr
        · intro hf hlt
          exfalso
          have := a4 (fun g hg => hf g (List.mem_cons_of_mem _ hg))
          have hl' : (scanLockStart st start stop).length = pre.length + (post.length + 1) := by rw [e4]; simp
          simp only [List.length_cons] at hlt
          omega
      · constructor
        · intro rs r rest he hr hrs
          rw [a1] at he
          obtain ⟨rfl, rfl⟩ := first_unique (xs := rs) (xs' := ⟨A, true, ek⟩ :: rs0) (by rw [← he]; rfl) hr a2 hrs
            (by
              intro x hx
              rcases List.mem_cons.1 hx with rfl | hx
              · rfl
              · exact a3 x hx)
          have : joinPages (⟨A, true, ek⟩ :: rs0 ++ [r]) = lockList st maxTs start stop := by
            simp only [List.cons_append, joinPages, e6]
            exact a4
          rw [this]
          exact ⟨g1, g2⟩
        · intro _ _
          exact ⟨r0, by rw [a1]; simp, a2⟩

/-- C52, a state with two locks, pages of two: the second lock comes twice. -/
def lockPair : List Req :=
  [.prewrite { mutations := [{ op := .put, key := kA, value := vA }, { op := .put, key := kB, value := vLong }],
               primary := kA, startTs := 10, ttl := 100 }]

example : (scanLockPages 100 (List.replicate 2 (fun a => decide (a.length ≥ 2)))
      (scanLockStart (run State.init lockPair) [1] [2])).map (fun r => (r.locks.map (·.key), r.hasMore, r.endKey)) =
    [([kA, kB], true, kB), ([kB], false, kB)] := by decide +kernel

/-- C52, hypotheses met: the state is reachable and has a lock to report. -/
example : Reachable sampleRoles.spec (run State.init lockPair) ∧
    ∃ l, LockWanted (run State.init lockPair) 100 [1] [2] l :=
  ⟨reachable_of (by decide +kernel), ((run State.init lockPair).lock.get kA).get (by decide +kernel),
    by unfold LockOn; decide +kernel, by decide +kernel, by decide +kernel, by decide +kernel⟩

end Verif.Txn
