import Verif.Txn.Sample

/-! # Transactional reads: properties C09 and C11 -/

namespace Verif.Txn
open Verif.Codec

/-! ## C09 -/

/-- C09: in every state reached by disciplined clients, a snapshot read at `ts`
answers.  Either it returns, for exactly the keys asked for and in that order,
what the snapshot at `ts` holds, and none of the keys carries a lock in the way;
or it reports a lock that a requested key carries and that stands in the way.  The
stored records are not changed. -/
theorem C09_txnGet {D : Bytes → TsOwner} {st : State} (h : GcReachable D st) {ts : Int} {resolved : List Int}
    {keys : List Bytes} (hv : (Req.get .si ts resolved keys).Valid) :
    ∃ resp, (step st (.get .si ts resolved keys)).2 = .get (.ok resp) ∧
      (∀ kv ∈ resp.kvs, Snapshot st kv.1 ts (valueOf kv.2)) ∧
      ((resp.result = none ∧ resp.kvs.map Prod.fst = keys ∧
          ∀ k ∈ keys, ∀ l, LockOn st k l → ¬ Blocks l ts resolved) ∨
       (∃ k ∈ keys, ∃ l, resp.result = some (.locked l) ∧ LockOn st k l ∧ Blocks l ts resolved)) ∧
      (step st (.get .si ts resolved keys)).1.write = st.write ∧
      (step st (.get .si ts resolved keys)).1.lock = st.lock ∧
      (step st (.get .si ts resolved keys)).1.data = st.data := by
  have hg : Good D (st.access ts) := by
    have hs := h.good.step hv (r := .get .si ts resolved keys) trivial
    exact hs
  rcases batchGetLoop_si hg hv.2.1 resolved keys [] with ⟨kvs, h1, h2, h3, h4⟩ | ⟨kvs, l, h1, h2, k, h3, h4, h5⟩
  · exact ⟨{ kvs := [] ++ kvs }, by simp only [step, batchGet]; rw [h1], h3, Or.inl ⟨rfl, h2, h4⟩, rfl, rfl, rfl⟩
  · exact ⟨{ result := some (.locked l), kvs := [] ++ kvs }, by simp only [step, batchGet]; rw [h1], h2,
      Or.inr ⟨k, h3, l, rfl, h4, h5⟩, rfl, rfl, rfl⟩

/-- The specification has one answer: `C09_txnGet` determines the result. -/
theorem C09_snapshot_unique {st : State} {k : Bytes} {ts : Int} {v v' : Option Bytes}
    (h : Snapshot st k ts v) (h' : Snapshot st k ts v') : v = v' := h.unique h'

/-- C09, answers of the sample history: below the first commit nothing, after it
both values, after the one-phase delete `kA` is absent, and a lock above the read. -/
example :
    (step sampleState (.get .si 14 [] [kA, kB])).2 = .get (.ok { kvs := [(kA, []), (kB, [])] }) ∧
    (step sampleState (.get .si 15 [] [kB, kA])).2 = .get (.ok { kvs := [(kB, vLong), (kA, vA)] }) ∧
    (step sampleState (.get .si 35 [] [kA, kB])).2 = .get (.ok { kvs := [(kA, []), (kB, vLong)] }) ∧
    (∃ l, (step sampleState (.get .si 41 [] [kA, kB])).2 = .get (.ok { result := some (.locked l), kvs := [(kA, [])] })) :=
  ⟨by decide +kernel, by decide +kernel, by decide +kernel, ⟨(sampleState.lock.get kB).get (by decide +kernel), by decide +kernel⟩⟩

/-- C09, hypotheses met. -/
example : Reachable sampleRoles.spec sampleState ∧ (Req.get .si 41 [] [kA, kB]).Valid :=
  ⟨sample_reachable, by decide⟩

/-- C09 under the memory limit of the response (`FLAGS_max_batch_get_memory_size`):
the full claim, that every requested key is answered, is false.  With the limit
reached the response is a success without some of the keys, and nothing in it says
so. -/
theorem C09_limit_false : ∃ (st : State) (size : Bytes → Bytes → Nat) (limit : Nat) (keys : List Bytes),
    Reachable sampleRoles.spec st ∧ 0 < limit ∧
    ∃ resp, batchGet st .si 15 [] size limit keys = .ok resp ∧ resp.result = none ∧
      resp.kvs.map Prod.fst ≠ keys ∧
      ∃ k ∈ keys, k ∉ resp.kvs.map Prod.fst ∧ ∃ v, Snapshot st k 15 (some v) := by
  refine ⟨sampleState, fun k v => k.length + v.length, 300, [kB, kA], sample_reachable, by decide,
    { kvs := [(kB, vLong)] }, by decide +kernel, rfl, by decide, kA, by decide, by decide, vA, ?_⟩
  obtain ⟨resp, h1, h2, _⟩ := C09_txnGet sample_gc (ts := 15) (resolved := []) (keys := [kA]) (by decide)
  have he : (step sampleState (.get .si 15 [] [kA])).2 = .get (.ok { kvs := [(kA, vA)] }) := by decide +kernel
  rw [he] at h1
  simp only [Resp.get.injEq, Out.ok.injEq] at h1
  subst h1
  exact h2 (kA, vA) (by simp)

theorem batchGetLoop_limit {D : Bytes → TsOwner} {st : State} (h : Good D st) {ts : Int} (hts : ts ≤ maxVer)
    (resolved : List Int) (size : Bytes → Bytes → Nat) (limit : Nat) (ks : List Bytes) (used : Nat)
    (acc : List (Bytes × Bytes)) :
    ∃ kvs res, batchGetLoop st .si ts resolved size limit ks used acc = .ok { result := res, kvs := acc ++ kvs } ∧
      (∀ kv ∈ kvs, Snapshot st kv.1 ts (valueOf kv.2)) ∧ kvs.map Prod.fst <+: ks ∧
      (res = none ∨ ∃ k ∈ ks, ∃ l, res = some (.locked l) ∧ LockOn st k l ∧ Blocks l ts resolved) ∧
      (res = none → kvs.map Prod.fst ≠ ks → limit ≤ used + (kvs.map (fun kv => size kv.1 kv.2)).sum) := by
  induction ks generalizing acc used with
  | nil => exact ⟨[], none, by simp [batchGetLoop], by simp, by simp, Or.inl rfl, by simp⟩
  | cons k ks ih =>
    simp only [batchGetLoop]
    rcases getKey_si h (k := k) hts resolved with ⟨l, h1, h2, h3⟩ | ⟨v, h1, h2, h3⟩
    · rw [h1]
      exact ⟨[], _, by simp, by simp, by simp, Or.inr ⟨k, List.mem_cons_self, l, rfl, h2, h3⟩, by simp⟩
    · rw [h1]
      simp only
      split
      · rename_i hlim
        refine ⟨[(k, v)], none, by simp, by simpa using h2, by simp, Or.inl rfl, ?_⟩
        intro _ _
        simpa using hlim
      · obtain ⟨kvs, res, a1, a2, a3, a4, a5⟩ := ih (used + size k v) (acc ++ [(k, v)])
        refine ⟨(k, v) :: kvs, res, by rw [a1]; simp, ?_, ?_, ?_, ?_⟩
        · intro kv hkv
          rcases List.mem_cons.1 hkv with rfl | hkv
          · exact h2
          · exact a2 kv hkv
        · simpa using a3
        · rcases a4 with a4 | ⟨k', hk', a4⟩
          · exact Or.inl a4
          · exact Or.inr ⟨k', List.mem_cons_of_mem _ hk', a4⟩
        · intro hr hne
          have := a5 hr (fun he => hne (by simp [he]))
          simp only [List.map_cons, List.sum_cons]; omega

/-- C09 under the memory limit (partial): whatever the limit, each returned pair is
what the snapshot holds and the keys answered are the first of those asked for; keys
are left out without a lock being reported only when the limit was reached.
Missing: an indication that keys were left out (`C09_limit_false`). -/
theorem C09_limit_partial {D : Bytes → TsOwner} {st : State} (h : GcReachable D st) {ts : Int} {resolved : List Int}
    {keys : List Bytes} (hts : ts ≤ maxVer) (size : Bytes → Bytes → Nat) (limit : Nat) :
    ∃ resp, batchGet st .si ts resolved size limit keys = .ok resp ∧
      (∀ kv ∈ resp.kvs, Snapshot st kv.1 ts (valueOf kv.2)) ∧ resp.kvs.map Prod.fst <+: keys ∧
      (resp.result = none ∨ ∃ k ∈ keys, ∃ l, resp.result = some (.locked l) ∧ LockOn st k l ∧ Blocks l ts resolved) ∧
      (resp.result = none → resp.kvs.map Prod.fst ≠ keys →
        limit ≤ (resp.kvs.map (fun kv => size kv.1 kv.2)).sum) := by
  obtain ⟨kvs, res, h1, h2, h3, h4, h5⟩ := batchGetLoop_limit h.good hts resolved size limit keys 0 []
  refine ⟨{ result := res, kvs := [] ++ kvs }, h1, h2, h3, h4, ?_⟩
  simpa using h5

/-! ## C11 -/

/-- C11: a snapshot read at `ts`, then any disciplined history in which clients
commit above `ts` (the timestamps the store chooses for one-phase commits need no
assumption), then the same read: a key answered both times is answered the same. -/
theorem C11_repeatable_read {D : Bytes → TsOwner} {st : State} (h : GcReachable D st) {ts : Int}
    {res res' : List Int} {keys keys' : List Bytes}
    (hv : (Req.get .si ts res keys).Valid) (hv' : (Req.get .si ts res' keys').Valid)
    {rs : List Req} (hd : Disciplined D (step st (.get .si ts res keys)).1 rs) (ha : CommitsAbove ts rs)
    {resp resp' : GetResp}
    (h1 : (step st (.get .si ts res keys)).2 = .get (.ok resp))
    (h2 : (step (run (step st (.get .si ts res keys)).1 rs) (.get .si ts res' keys')).2 = .get (.ok resp'))
    {k v v' : Bytes} (hkv : (k, v) ∈ resp.kvs) (hkv' : (k, v') ∈ resp'.kvs) : v = v' := by
  have hg := h.good.step hv (r := .get .si ts res keys) trivial
  have hr : GcReachable D (run (step st (.get .si ts res keys)).1 rs) := (h.req hv trivial).run hd
  obtain ⟨r1, e1, s1, _⟩ := C09_txnGet h hv
  obtain ⟨r2, e2, s2, _⟩ := C09_txnGet hr hv'
  rw [e1] at h1; cases h1
  rw [e2] at h2; cases h2
  have hmx : ts ≤ (step st (.get .si ts res keys)).1.maxTs := by
    simp only [step, State.access]; omega
  have a1 : Snapshot (step st (.get .si ts res keys)).1 k ts (valueOf v) := s1 _ hkv
  exact valueOf_inj ((run_snapshot hg hd hmx ha a1).unique (s2 _ hkv'))

/-- C11, hypotheses met: the read at 35, then transaction 40 commits at 45 and
transaction 50 overwrites `kA`. -/
example : ∃ rs, rs.length = 3 ∧ CommitsAbove 35 rs ∧
    Disciplined sampleRoles.spec (step sampleState (.get .si 35 [] [kA, kB])).1 rs ∧
    (step (run (step sampleState (.get .si 35 [] [kA, kB])).1 rs) (.get .si 45 [] [kB])).2
      = .get (.ok { kvs := [(kB, [3])] }) ∧
    (step (run (step sampleState (.get .si 35 [] [kA, kB])).1 rs) (.get .si 35 [] [kB])).2
      = .get (.ok { kvs := [(kB, vLong)] }) := by
  refine ⟨[.commit 40 45 [kB],
    .prewrite { mutations := [{ op := .put, key := kA, value := vA }], primary := kA, startTs := 50 },
    .commit 50 55 [kA]], rfl, ?_, disciplinedB_sound (by decide +kernel), by decide +kernel, by decide +kernel⟩
  intro r hr
  simp only [List.mem_cons, List.not_mem_nil, or_false] at hr
  rcases hr with rfl | rfl | rfl <;> simp

end Verif.Txn
