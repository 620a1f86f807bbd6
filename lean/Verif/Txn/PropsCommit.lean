import Verif.Txn.Value
import Verif.Txn.Sample

/-! # What commit and resolve write: properties C17 and C22 -/

namespace Verif.Txn
open Verif.Codec

/-- No lock check can be repeated when the transaction has not prewritten the key. -/
theorem pass_true {st : State} (h : Inv st) {r : PrewriteReq} (hs : 0 < r.startTs) {m : Mut}
    (hp : prewriteLockCheck st r m = .pass true) :
    ∃ l, (view st m.key).lock = some l ∧ l.lockTs = r.startTs ∧ l.type ≠ .lock := by
  have key : (getLock st m.key).lockTs = r.startTs → (getLock st m.key).type ≠ .lock →
      ∃ l, (view st m.key).lock = some l ∧ l.lockTs = r.startTs ∧ l.type ≠ .lock := by
    intro h1 h2
    exact ⟨_, (getLock_of_ts h hs h1).1, h1, h2⟩
  simp only [prewriteLockCheck] at hp
  have hother : ∀ (l : LockInfo) (b : Bool), (match checkCommitted st r.startTs m.key with
      | some (_, t) => LockCheck.committed t
      | none => LockCheck.locked l) = .pass b → False := by
    intro l b hh
    split at hh <;> cases hh
  split at hp
  · split at hp
    · exact (hother _ _ hp).elim
    · rename_i hty
      split at hp
      · split at hp
        · rename_i hts; exact key hts hty
        · exact (hother _ _ hp).elim
      · cases hp
  · split at hp
    · split at hp
      · rename_i hts
        split at hp
        · rename_i hty; exact key hts hty
        · split at hp
          · split at hp <;> cases hp
          · cases hp
      · exact (hother _ _ hp).elim
    · cases hp

/-- The request is the first prewrite of its transaction on its keys, and names every
key once. -/
structure FreshPrewrite (st : State) (q : PrewriteReq) : Prop where
  nodup : (q.mutations.map (·.key)).Nodup
  notCommitted : ∀ m ∈ q.mutations, ∀ c, ¬ CommittedOn st m.key q.startTs c
  notPrewritten : ∀ m ∈ q.mutations, ∀ l, LockOn st m.key l → l.lockTs = q.startTs → l.type = .lock

theorem fresh_cov {st : State} (h : Inv st) {q : PrewriteReq} (hs : 0 < q.startTs) (hf : FreshPrewrite st q) {a : PwAcc}
    (ha : AccOk st q q.mutations a) (hr : a.results = []) {m : Mut} (hm : m ∈ q.mutations) {v : Option Bytes}
    (hv : m.effect = some v) :
    ∃ l, (m.key, l) ∈ a.locks ∨ (m.key, m.value, l, m.pess) ∈ a.onePc := by
  rcases ha.cov hr m hm (effect_ne hv) with ⟨l, hl, _⟩ | ⟨hp, _⟩
  · exact ⟨l, hl⟩
  · obtain ⟨l, h1, h2, h3⟩ := pass_true h hs hp
    exact absurd (hf.notPrewritten m hm l (lockOn_iff.2 h1) h2) h3

/-- C17, Prewrite: a prewrite that succeeds leaves every value of the request pending
on its key, or, with one-phase commit, written at the reported timestamp with no lock
left. -/
theorem C17_prewrite {D : Bytes → TsOwner} {st : State} (h : GcReachable D st) {q : PrewriteReq}
    (hv : (Req.prewrite q).Valid) (hf : FreshPrewrite st q) {resp : PrewriteResp}
    (hok : (step st (.prewrite q)).2 = .prewrite (.ok resp)) (hr : resp.results = []) (he : resp.exist = []) :
    ∀ m ∈ q.mutations, ∀ v, m.effect = some v →
      if resp.onePcTs = 0 then Pending (step st (.prewrite q)).1 m.key q.startTs v
      else Wrote (step st (.prewrite q)).1 m.key q.startTs resp.onePcTs v ∧
        ¬ ∃ l, LockOn (step st (.prewrite q)).1 m.key l := by
  intro m hm v hef
  have hg := h.good
  have hend := prewrite_end hg.inv hv.1 hv.2.1 hv.2.2.1
  simp only [step] at hok ⊢
  generalize prewrite st q = p at hend hok ⊢
  cases hend with
  | none o ho =>
    exfalso
    simp only [Resp.prewrite.injEq] at hok
    obtain ⟨m', hm', w, t, hc⟩ := ho resp hok hr he
    obtain ⟨_, a2, a3, a4⟩ := checkCommitted_some hc
    refine hf.notCommitted m' hm' t (committedOn_iff.2 ⟨w, a2, a3, ?_⟩)
    rcases ((hg.inv m'.key).write t w a2).2.2 with ⟨b, _⟩ | ⟨b, _⟩
    · exact absurd b a4
    · exact b
  | onePc a ha hres hex ht =>
    simp only [Resp.prewrite.injEq, Out.ok.injEq] at hok
    subst hok
    obtain ⟨l, hl⟩ := fresh_cov hg.inv hv.1.1 hf ha hres hm hef
    have hl' : (m.key, m.value, l, m.pess) ∈ a.onePc := by
      rcases hl with hl | hl
      · rw [ha.noLocks ht] at hl; cases hl
      · exact hl
    obtain ⟨_, _, _, _, _, _, _, b7, b8⟩ := ha.onePc _ hl'
    have hfin := ha.final ht _ hl'
    have hpos := hv.1.1
    simp only at b8 hfin
    rw [if_neg (by simp only; omega)]
    refine ⟨wrote_iff.2 (onePcBatch_wrote hg ha ht hf.nodup hm hl hef), ?_⟩
    rw [← noLock_iff]
    obtain ⟨e, h1, h2⟩ := onePcBatch_view hg.inv hpos ha ht m.key
    have hw := (onePcBatch_wrote hg ha ht hf.nodup hm hl hef).record
    rcases h2 with rfl | ⟨m', _, _, rfl⟩
    · exfalso
      rw [h1.nop_eq] at hw
      obtain ⟨w, c1, c2, c3⟩ := hw
      exact hf.notCommitted m hm _ (committedOn_iff.2 ⟨w, c1, c2, c3⟩)
    · generalize view (st.apply (onePcBatch q.startTs a.finalMin a)) m.key = y at h1
      cases h1
      rfl
  | locks a ha hres hex ht =>
    simp only [Resp.prewrite.injEq, Out.ok.injEq] at hok
    subst hok
    rw [if_pos rfl]
    obtain ⟨l, hl⟩ := fresh_cov hg.inv hv.1.1 hf ha hres hm hef
    exact pending_iff.2 (prewriteBatch_pend hg ha hf.nodup hm hl hef)

/-- Snapshots below `c` survive a step whose new commit records are at `c`. -/
theorem snapshot_below {D : Bytes → TsOwner} {st : State} (h : Good D st) {r : Req} (hv : r.Valid) (hd : r.Disc D st)
    {k : Bytes} {c : Int}
    (hnew : ∀ t w, (view (step st r).1 k).write t = some w → w.committed → (view st k).write t = some w ∨ t = c)
    {ts : Int} (hts : ts < c) {u : Option Bytes} (hu : Snapshot st k ts u) : Snapshot (step st r).1 k ts u := by
  have hback : ∀ s' c', CommittedOn (step st r).1 k s' c' → c' ≤ ts → CommittedOn st k s' c' := by
    intro s' c' hc hle
    obtain ⟨w, h1, h2, h3⟩ := committedOn_iff.1 hc
    rcases hnew c' w h1 h3 with h | h
    · exact committedOn_iff.2 ⟨w, h, h2, h3⟩
    · omega
  rcases hu with ⟨h1, h2⟩ | ⟨s', c', h1, h2, h3⟩
  · left
    refine ⟨h1, fun s' c' hc => ?_⟩
    by_cases hle : c' ≤ ts
    · have := h2 s' c' (hback s' c' hc hle); omega
    · omega
  · right
    exact ⟨s', c', h1, run_wrote h (rs := [r]) ⟨hv, hd, trivial⟩ h2,
      fun s'' c'' hc hle => h3 s'' c'' (hback s'' c'' hc hle) hle⟩

/-- C17, Commit: a value pending on a key, through any disciplined history, is
exactly what a successful Commit of that key makes visible at `c` and above (below any
newer commit); reads of any key below `c` are not affected.  All keys of the request
change in the same step. -/
theorem C17_commit {D : Bytes → TsOwner} {st : State} (h : GcReachable D st) {rs : List Req} (hrs : Disciplined D st rs)
    {s c : Int} {keys : List Bytes} (hv : (Req.commit s c keys).Valid) (hd : (Req.commit s c keys).Disc D (run st rs))
    (hok : (step (run st rs) (.commit s c keys)).2 = .basic (.ok none)) :
    (∀ k ∈ keys, ∀ v, Pending st k s v →
      Wrote (step (run st rs) (.commit s c keys)).1 k s c v ∧
      (∀ l, LockOn (step (run st rs) (.commit s c keys)).1 k l → l.lockTs ≠ s) ∧
      ∀ ts, c ≤ ts →
        (∀ s' c', CommittedOn (step (run st rs) (.commit s c keys)).1 k s' c' → c' ≤ ts → c' ≤ c) →
        Snapshot (step (run st rs) (.commit s c keys)).1 k ts v) ∧
    ∀ k ts u, ts < c → Snapshot (run st rs) k ts u → Snapshot (step (run st rs) (.commit s c keys)).1 k ts u := by
  have hg := h.good
  have hg' := hg.run hrs
  have hga : Good D ((run st rs).access c) := ⟨hg'.inv, hg'.dinv⟩
  have hok' : (commit ((run st rs).access c) s c keys).2 = .ok none := by
    simpa only [step, Resp.basic.injEq] using hok
  constructor
  · intro k hk v hp
    have hh := run_has hg hrs (k := k) (s := s) (v := v) (Or.inl (pending_iff.1 hp))
    obtain ⟨h1, h2⟩ := commit_wrote hga hv.1.1 hv.2.1.2 hok' hk (v := v) hh
    have hw : Wrote (step (run st rs) (.commit s c keys)).1 k s c v := wrote_iff.2 h1
    exact ⟨hw, fun l hl => h2 l (lockOn_iff.1 hl), fun ts hle hmax => Or.inr ⟨s, c, hle, hw, hmax⟩⟩
  · intro k ts u hlt hu
    refine snapshot_below hg' hv hd (c := c) ?_ hlt hu
    intro t w hw hc
    obtain ⟨_, hx⟩ := commit_exact hga.inv hv.1.1 hv.2.1.2 hok'
    have heq : view (step (run st rs) (.commit s c keys)).1 k = view (commit ((run st rs).access c) s c keys).1 k := rfl
    rw [heq] at hw
    by_cases hk : k ∈ keys
    · rcases (hx k).1 hk with ⟨l, _, _, _, _, h5⟩ | ⟨_, _, h5⟩
      · rw [h5] at hw
        simp only [upd] at hw
        split at hw
        · rename_i ht; exact Or.inr ht
        · exact Or.inl hw
      · rw [h5] at hw; exact Or.inl hw
    · rw [(hx k).2 hk] at hw; exact Or.inl hw

/-- C17, one-phase commit: reads below the commit timestamp are not affected. -/
theorem C17_onePc_below {D : Bytes → TsOwner} {st : State} (h : GcReachable D st) {q : PrewriteReq}
    (hv : (Req.prewrite q).Valid) (hd : (Req.prewrite q).Disc D st) {resp : PrewriteResp}
    (hok : (step st (.prewrite q)).2 = .prewrite (.ok resp)) {k : Bytes} {ts : Int} {u : Option Bytes}
    (hts : ts < resp.onePcTs) (hu : Snapshot st k ts u) : Snapshot (step st (.prewrite q)).1 k ts u := by
  refine snapshot_below h.good hv hd (c := resp.onePcTs) ?_ hts hu
  intro t w hw hc
  have hend := prewrite_end h.good.inv hv.1 hv.2.1 hv.2.2.1
  simp only [step] at hok hw
  generalize prewrite st q = p at hend hok hw
  cases hend with
  | none o ho => exact Or.inl hw
  | onePc a ha hres hex ht =>
    simp only [Resp.prewrite.injEq, Out.ok.injEq] at hok
    subst hok
    obtain ⟨e, h1, h2⟩ := onePcBatch_view h.good.inv hv.1.1 ha ht k
    simp only at hw
    rcases h2 with rfl | ⟨m', _, _, rfl⟩
    · rw [h1.nop_eq] at hw; exact Or.inl hw
    · generalize view (st.apply (onePcBatch q.startTs a.finalMin a)) k = y at h1 hw
      cases h1
      simp only [upd] at hw
      split at hw
      · rename_i ht'; exact Or.inr ht'
      · exact Or.inl hw
  | locks a ha hres hex ht =>
    simp only at hw
    obtain ⟨e, h1, h2⟩ := prewriteBatch_view h.good.inv ha k
    rcases h2 with rfl | ⟨m', _, _, rfl⟩
    · rw [h1.nop_eq] at hw; exact Or.inl hw
    · generalize view (st.apply (prewriteBatch a)) k = y at h1 hw
      cases h1
      exact Or.inl hw

/-- C17, hypotheses met: a prewrite of a short and a long value and a deletion on top
of the sample state, other requests, then the commit. -/
def c17Req : PrewriteReq :=
  { mutations := [{ op := .put, key := kA, value := vLong }, { op := .delete, key := [2] },
                  { op := .put, key := [3], value := [4] }], primary := kA, startTs := 50 }

example : FreshPrewrite sampleState c17Req ∧ (Req.prewrite c17Req).Valid ∧
    (step sampleState (.prewrite c17Req)).2 = .prewrite (.ok {}) ∧
    Disciplined sampleRoles.spec sampleState
      [.prewrite c17Req, .commit 40 45 [kB], .checkTxnStatus ⟨kA, 50, 53, 0, false, false⟩, .commit 50 55 [kA, [2], [3]]] ∧
    (step (run sampleState [.prewrite c17Req, .commit 40 45 [kB], .checkTxnStatus ⟨kA, 50, 53, 0, false, false⟩])
      (.commit 50 55 [kA, [2], [3]])).2 = .basic (.ok none) := by
  refine ⟨⟨by decide, ?_, ?_⟩, by decide, by decide +kernel, ?_, by decide +kernel⟩
  · intro m hm c hc
    have hno : ∀ e ∈ sampleState.write.l, e.2.startTs ≠ 50 := by decide +kernel
    obtain ⟨w, h1, h2, _⟩ := hc
    exact hno _ h1 h2
  · intro m hm l hl hts
    have hno : ∀ e ∈ sampleState.lock.l, e.2.lockTs ≠ 50 := by decide +kernel
    exact absurd hts (hno _ hl)
  · exact disciplinedB_sound (R := sampleRoles) (by decide +kernel)

/-! ## C22 -/

/-- The key reads the same in both states: same lock, records and values. -/
structure SameKey (st st' : State) (k : Bytes) : Prop where
  lock : ∀ l, LockOn st' k l ↔ LockOn st k l
  records : ∀ t w, (⟨k, t⟩, w) ∈ st'.write.l ↔ (⟨k, t⟩, w) ∈ st.write.l
  values : ∀ t v, (⟨k, t⟩, v) ∈ st'.data.l ↔ (⟨k, t⟩, v) ∈ st.data.l

theorem sameKey_of {st st' : State} {k : Bytes} (h : view st' k = view st k) : SameKey st st' k := by
  have h1 : st'.lock.get k = st.lock.get k := congrArg KS.lock h
  have h2 : ∀ t, st'.write.get ⟨k, t⟩ = st.write.get ⟨k, t⟩ := fun t => congrFun (congrArg KS.write h) t
  have h3 : ∀ t, st'.data.get ⟨k, t⟩ = st.data.get ⟨k, t⟩ := fun t => congrFun (congrArg KS.data h) t
  exact ⟨fun l => by simp only [LockOn, CF.mem_iff_get, h1], fun t w => by simp only [CF.mem_iff_get, h2],
    fun t v => by simp only [CF.mem_iff_get, h3]⟩

theorem nodup_fst {infos : List (Int × Int)} (hnd : (infos.map (·.1)).Nodup) {i j : Int × Int} (hi : i ∈ infos)
    (hj : j ∈ infos) (h : i.1 = j.1) : i = j := by
  induction infos with
  | nil => cases hi
  | cons a as ih =>
    simp only [List.map_cons, List.nodup_cons, List.mem_map, not_exists, not_and] at hnd
    rcases List.mem_cons.1 hi with h1 | h1
    · rcases List.mem_cons.1 hj with h2 | h2
      · rw [h1, h2]
      · subst h1; exact absurd h.symm (hnd.1 j h2)
    · rcases List.mem_cons.1 hj with h2 | h2
      · subst h2; exact absurd h (hnd.1 i h1)
      · exact ih hnd.2 h1 h2

/-- What resolving transaction `s` with `c` does to one key: a lock of `s` is committed
at `c` with the value it carried, or rolled back when `c = 0`, and nothing else
changes on the key. -/
structure ResolvedKey (st st' : State) (s c : Int) (k : Bytes) : Prop where
  /-- the lock of `s` is gone -/
  unlocked : ∀ l, LockOn st' k l → l.lockTs ≠ s
  /-- locks of other transactions stay -/
  others : ∀ l, l.lockTs ≠ s → (LockOn st' k l ↔ LockOn st k l)
  /-- a value that was pending is written at `c` -/
  committed : 0 < c → ∀ v, Pending st k s v → Wrote st' k s c v
  /-- a locked key is marked as rolled back -/
  rolledBack : c = 0 → ∀ l, LockOn st k l → l.lockTs = s → RolledBackOn st' k s
  /-- records at other timestamps stay, and without a lock of `s` all do -/
  records : ∀ t w, t ≠ (if 0 < c then c else s) ∨ (∀ l, LockOn st k l → l.lockTs ≠ s) →
    ((⟨k, t⟩, w) ∈ st'.write.l ↔ (⟨k, t⟩, w) ∈ st.write.l)
  /-- values of other transactions stay -/
  values : ∀ t v, t ≠ s → ((⟨k, t⟩, v) ∈ st'.data.l ↔ (⟨k, t⟩, v) ∈ st.data.l)

theorem resolvedKey_of {st st' : State} {s c : Int} {k : Bytes} (hc0 : 0 ≤ c)
    (h : Resolved s c (view st k) (view st' k)) : ResolvedKey st st' s c k := by
  have hw : ∀ (st : State) (t : Int) (w : WriteInfo), (⟨k, t⟩, w) ∈ st.write.l ↔ (view st k).write t = some w :=
    fun st t w => CF.mem_iff_get _ _ _
  have hdt : ∀ (st : State) (t : Int) (w : Bytes), (⟨k, t⟩, w) ∈ st.data.l ↔ (view st k).data t = some w :=
    fun st t w => CF.mem_iff_get _ _ _
  rcases h with ⟨h1, h2⟩ | ⟨l, h1, h2, h3, h4⟩
  · refine ⟨?_, ?_, ?_, ?_, ?_, ?_⟩
    · intro l hl; rw [lockOn_iff, h2] at hl; exact h1 l hl
    · intro l _; rw [lockOn_iff, lockOn_iff, h2]
    · intro _ v hp
      obtain ⟨l, a1, a2, _⟩ := (pending_iff.1 hp).lock
      exact absurd a2 (h1 l a1)
    · intro _ l hl hts; exact absurd hts (h1 l (lockOn_iff.1 hl))
    · intro t w _; rw [hw, hw, h2]
    · intro t w _; rw [hdt, hdt, h2]
  · by_cases hc : 0 < c
    · rw [if_pos hc] at h4
      refine ⟨?_, ?_, ?_, ?_, ?_, ?_⟩
      · intro l' hl; rw [lockOn_iff, h4] at hl; cases hl
      · intro l' hne
        rw [lockOn_iff, lockOn_iff, h4, h1]
        constructor
        · intro h; cases h
        · intro h; cases h; exact absurd h2 hne
      · intro _ v hp
        rw [wrote_iff, h4]
        exact (pending_iff.1 hp).commit h1
      · intro h; omega
      · intro t w ht
        rw [if_pos hc] at ht
        rw [hw, hw, h4]
        rcases ht with ht | ht
        · simp only [upd_ne _ _ ht]
        · exact absurd h2 (ht l (lockOn_iff.2 h1))
      · intro t w _; rw [hdt, hdt, h4]
    · rw [if_neg hc] at h4
      have hc' : c = 0 := by omega
      subst hc'
      refine ⟨?_, ?_, ?_, ?_, ?_, ?_⟩
      · intro l' hl; rw [lockOn_iff, h4] at hl; cases hl
      · intro l' hne
        rw [lockOn_iff, lockOn_iff, h4, h1]
        constructor
        · intro h; cases h
        · intro h; cases h; exact absurd h2 hne
      · intro h; omega
      · intro _ l' hl hts
        exact ⟨_, (hw _ _ _).2 (by rw [h4]; exact upd_same _ _ _), rfl, rfl⟩
      · intro t w ht
        rw [if_neg hc] at ht
        rw [hw, hw, h4]
        rcases ht with ht | ht
        · simp only [upd_ne _ _ ht]
        · exact absurd h2 (ht l (lockOn_iff.2 h1))
      · intro t w ht
        rw [hdt, hdt, h4]
        simp only
        split
        · rw [upd_ne _ _ ht]
        · rfl

/-- C22, ResolveLock with keys: on success every named key is resolved and every other
key is untouched; otherwise nothing changes. -/
theorem C22_resolveLock {D : Bytes → TsOwner} {st : State} (h : GcReachable D st) {s c : Int} {keys : List Bytes}
    (hv : (Req.resolveLock s c keys).Valid) :
    ((step st (.resolveLock s c keys)).2 = .basic (.ok none) →
      0 ≤ c ∧ (0 < c → s < c) ∧
      (∀ k ∈ keys, ResolvedKey st (step st (.resolveLock s c keys)).1 s c k) ∧
      ∀ k, k ∉ keys → SameKey st (step st (.resolveLock s c keys)).1 k) ∧
    ((step st (.resolveLock s c keys)).2 ≠ .basic (.ok none) →
      ∀ k, SameKey st (step st (.resolveLock s c keys)).1 k) := by
  have hi : Inv (st.access c) := h.good.inv
  constructor
  · intro hok
    have hok' : (resolveLock (st.access c) s c keys).2 = .ok none := by
      simpa only [step, Resp.basic.injEq] using hok
    obtain ⟨h1, h2, h3⟩ := resolveLock_exact hi hv.1 hv.2.1 hok'
    exact ⟨h1, h2, fun k hk => resolvedKey_of h1 ((h3 k).1 hk), fun k hk => sameKey_of ((h3 k).2 hk)⟩
  · intro hne k
    have hne' : (resolveLock (st.access c) s c keys).2 ≠ .ok none := by
      intro hh; apply hne; simp only [step, hh]
    refine sameKey_of (?_ : view (resolveLock (st.access c) s c keys).1 k = view st k)
    rw [resolveLock_fail hne']
    rfl

/-- C22, the same through the whole history: a value once pending and then resolved
with `c` is written at `c`, unless the transaction already ended. -/
theorem C22_resolve_value {D : Bytes → TsOwner} {st : State} (h : GcReachable D st) {rs : List Req}
    (hrs : Disciplined D st rs) {s c : Int} {keys : List Bytes} (hv : (Req.resolveLock s c keys).Valid) (hc : 0 < c)
    (hok : (step (run st rs) (.resolveLock s c keys)).2 = .basic (.ok none)) {k : Bytes} (hk : k ∈ keys)
    {v : Option Bytes} (hp : Pending st k s v) :
    Wrote (step (run st rs) (.resolveLock s c keys)).1 k s c v ∨
    (∃ c', Wrote (run st rs) k s c' v) ∨ RolledBackOn (run st rs) k s := by
  rcases run_has h.good hrs (Or.inl (pending_iff.1 hp)) with hp' | ⟨c', hw⟩ | hr
  · left
    have hre : GcReachable D (run st rs) := h.run hrs
    exact ((((C22_resolveLock hre hv).1 hok).2.2.1) k hk).committed hc v (pending_iff.2 hp')
  · exact Or.inr (Or.inl ⟨c', wrote_iff.2 hw⟩)
  · right; right
    obtain ⟨w, h1, h2, h3⟩ := hr
    exact ⟨w, (CF.mem_iff_get _ _ _).2 h1, h2, h3⟩

theorem resolved_lock_none {s c : Int} {x y : KS} (h : Resolved s c x y) {l : LockInfo} (hl : x.lock = some l)
    (hts : l.lockTs = s) : y.lock = none := by
  rcases h with ⟨h1, _⟩ | ⟨l', _, _, _, h4⟩
  · exact absurd hts (h1 l hl)
  · rw [h4]; split <;> rfl

theorem resolved_other {s c : Int} {x y : KS} (h : Resolved s c x y) (hl : ∀ l, x.lock = some l → l.lockTs ≠ s) :
    y = x := by
  rcases h with ⟨_, h⟩ | ⟨l', h1, h2, _⟩
  · exact h
  · exact absurd h2 (hl l' h1)

theorem batchResolveRun_exact (infos : List (Int × Int)) {st : State} (h : Inv st)
    (hv : ∀ i ∈ infos, (0 < i.1 ∧ i.1 ≤ maxVer) ∧ (0 < i.2 → i.1 < i.2 ∧ i.2 ≤ maxVer))
    (hr : (batchResolveRun st infos).2 = none) (k : Bytes) :
    ((∀ l, (view st k).lock = some l → ∀ i ∈ infos, i.1 ≠ l.lockTs) ∧
      view (batchResolveRun st infos).1 k = view st k) ∨
    ∃ i ∈ infos, ∃ l, (view st k).lock = some l ∧ l.lockTs = i.1 ∧
      Resolved i.1 i.2 (view st k) (view (batchResolveRun st infos).1 k) := by
  induction infos generalizing st with
  | nil => exact Or.inl ⟨fun _ _ i hi => (by cases hi), rfl⟩
  | cons i infos ih =>
    obtain ⟨s, c⟩ := i
    obtain ⟨hs, hc⟩ := hv (s, c) List.mem_cons_self
    have hinv : Inv (batchResolveOne st s c).1 := by
      intro k'
      obtain ⟨e', h1', _⟩ := batchResolveOne_view h hs hc k'
      exact h1'.inv (h k')
    simp only [batchResolveRun] at hr ⊢
    have hex := batchResolveOne_exact h (s := s) (c := c) hs hc
    generalize batchResolveOne st s c = p at hr hinv hex ⊢
    obtain ⟨st', o⟩ := p
    cases o with
    | some r => cases hr
    | none =>
      simp only at hr hinv hex ⊢
      have hx := hex trivial k
      rcases ih hinv (fun i hi => hv i (List.mem_cons_of_mem _ hi)) hr with ⟨a1, a2⟩ | ⟨i, hi, l, a1, a2, a3⟩
      · by_cases hl : ∃ l, (view st k).lock = some l ∧ l.lockTs = s
        · obtain ⟨l, hl, hts⟩ := hl
          right
          exact ⟨(s, c), List.mem_cons_self, l, hl, hts, by rw [a2]; exact hx⟩
        · have heq := resolved_other hx (fun l h1 h2 => hl ⟨l, h1, h2⟩)
          left
          refine ⟨fun l h1 i hi => ?_, a2.trans heq⟩
          rcases List.mem_cons.1 hi with rfl | hi
          · intro h2; exact hl ⟨l, h1, h2.symm⟩
          · exact a1 l (by rw [heq]; exact h1) i hi
      · have heq : view st' k = view st k := by
          refine resolved_other hx (fun l' h1 h2 => ?_)
          rw [resolved_lock_none hx h1 h2] at a1
          cases a1
        rw [heq] at a1 a3
        exact Or.inr ⟨i, List.mem_cons_of_mem _ hi, l, a1, a2, a3⟩

/-- C22, ResolveLock without keys: on success every lock of a listed transaction is
resolved with its listed timestamp, on every key of the region, and a key without
such a lock is untouched. -/
theorem C22_batchResolve {D : Bytes → TsOwner} {st : State} (h : GcReachable D st) {infos : List (Int × Int)}
    (hv : (Req.batchResolve infos).Valid) (hnd : (infos.map (·.1)).Nodup)
    (hok : (step st (.batchResolve infos)).2 = .basic (.ok none)) (k : Bytes) :
    (∀ i ∈ infos, ∀ l, LockOn st k l → l.lockTs = i.1 → ResolvedKey st (step st (.batchResolve infos)).1 i.1 i.2 k) ∧
    ((∀ i ∈ infos, ∀ l, LockOn st k l → l.lockTs ≠ i.1) → SameKey st (step st (.batchResolve infos)).1 k) := by
  simp only [step, batchResolve] at hok ⊢
  split at hok
  · cases hok
  · rename_i hany
    simp only [List.any_eq_true, decide_eq_true_eq, not_exists, not_and, not_or] at hany
    rw [if_neg (by simpa only [List.any_eq_true, decide_eq_true_eq, not_exists, not_and, not_or] using hany)]
    simp only [Resp.basic.injEq, Out.ok.injEq] at hok ⊢
    have hgood : ∀ i ∈ infos, (0 < i.1 ∧ i.1 ≤ maxVer) ∧ (0 < i.2 → i.1 < i.2 ∧ i.2 ≤ maxVer) := by
      intro i hi
      have h1 := hv i hi
      have h2 := hany i hi
      exact ⟨h1.1, fun hp => ⟨by omega, h1.2⟩⟩
    rcases batchResolveRun_exact infos h.good.inv hgood hok k with ⟨a1, a2⟩ | ⟨i, hi, l, a1, a2, a3⟩
    · exact ⟨fun i hi l hl hts => absurd hts.symm (a1 l (lockOn_iff.1 hl) i hi), fun _ => sameKey_of a2⟩
    · refine ⟨fun i' hi' l' hl' hts' => ?_, fun hno => absurd a2 (hno i hi l (lockOn_iff.2 a1))⟩
      have : i' = i := by
        rw [lockOn_iff, a1] at hl'
        cases hl'
        exact nodup_fst hnd hi' hi (by omega)
      subst this
      have hc0 : 0 ≤ i'.2 := by have := (hany i' hi').1; omega
      exact resolvedKey_of hc0 a3

/-- C22, hypotheses met: transaction 50 prewrites three keys on top of the sample
state; it is resolved as committed with keys, and as rolled back without keys. -/
example : (Req.resolveLock 50 55 [kA, [2], kB]).Valid ∧
    (step (run sampleState [.prewrite c17Req]) (.resolveLock 50 55 [kA, [2], kB])).2 = .basic (.ok none) ∧
    (∃ l, LockOn (run sampleState [.prewrite c17Req]) kB l ∧ l.lockTs = 40) ∧
    Pending (run sampleState [.prewrite c17Req]) kA 50 (some vLong) ∧
    (step (run sampleState [.prewrite c17Req]) (.batchResolve [(40, 45), (50, 0)])).2 = .basic (.ok none) := by
  refine ⟨by decide, by decide +kernel, ?_, ?_, by decide +kernel⟩
  · exact ⟨getLock (run sampleState [.prewrite c17Req]) kB, by decide +kernel, by decide +kernel⟩
  · exact ⟨getLock (run sampleState [.prewrite c17Req]) kA, by decide +kernel, by decide +kernel, by decide +kernel,
      Or.inr ⟨by decide +kernel, by decide +kernel⟩⟩

end Verif.Txn
