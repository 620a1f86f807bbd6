import Verif.Job.Advance

/-!
# Jobs of the coordinator: what jobs look like (lemmas)
-/

namespace Verif.Job

/-- What jobs look like when they are made. -/
inductive Shape : Job → Prop
  | create (n region : Nat) (stores : List Nat) : Shape ⟨n, .create region stores,
      [each ((number n stores).map (fun x => (x.2, .none, ⟨x.1, .create, region, .none, [], false⟩)))], 0⟩
  | drop (n region store : Nat) : Shape ⟨n, .drop region store, [deleteTask n store region .none], 0⟩
  | split (n m k region child leader : Nat) (byStore : Bool) (r : Rec) : Shape ⟨n, .split region child byStore r.peers r.indexVersion,
      splitVector n region r ++
        [each ((number m (if byStore then [] else r.peers)).map (fun x => (x.2, .none, ⟨x.1, .create, child, .none, [], false⟩))),
         stateTask (if byStore then [] else r.peers) child (some .standby),
         stateTask r.peers region (some .normal),
         one leader (if byStore then .none else .region { regionCheck child with state := some .standby })
           ⟨k, .split, region, some child, [], false⟩,
         stateTask (if byStore then [] else r.peers) child (some .normal)], 0⟩
  | splitInto (n region child leader : Nat) : Shape ⟨n, .splitInto region child,
      [one leader .none ⟨0, .split, region, some child, [], false⟩], 0⟩
  | merge (n k source target leader : Nat) (g : Region.Range) (r : Rec) : Shape ⟨n, .merge source target g r.peers r.indexVersion,
      (if r.vector then [holdTask n r.peers source, indexTask r.peers source r.version] else []) ++
        [one leader .none ⟨k, .merge, source, some target, [], false⟩,
         stateTask r.peers source (some .tombstone),
         ⟨[⟨leader, .region { regionCheck source with state := some .tombstone }, [], false, 0⟩], [source]⟩,
         await [(leader, .region { regionCheck target with state := some .normal, range := some g })]], 0⟩
  | addPeer (n region store leader : Nat) (old : List Nat) : store ∉ old → Shape ⟨n, .addPeer region store old,
      [createTask n store region, stateTask [store] region .none, changePeerTask (n + 1) leader region (store :: old),
       peersTask leader region (store :: old)], 0⟩
  | removePeer (n region store leader : Nat) (kept : List Nat) : store ∉ kept → Shape ⟨n, .removePeer region store kept,
      [changePeerTask n leader region kept, deleteTask (n + 1) store region (removeCheck region kept),
       peersTask leader region kept], 0⟩
  | movePeer (n region new old leader : Nat) (peers : List Nat) : new ∉ peers → old ∈ peers →
      Shape ⟨n, .movePeer region new old (new :: peers.filter (fun p => p ≠ old)),
        [createTask n new region, stateTask [new] region .none, changePeerTask (n + 1) leader region (new :: peers),
         peersTask leader region (new :: peers), changePeerTask (n + 2) leader region (new :: peers.filter (fun p => p ≠ old)),
         deleteTask (n + 3) old region (removeCheck region (new :: peers.filter (fun p => p ≠ old))),
         peersTask leader region (new :: peers.filter (fun p => p ≠ old))], 0⟩
  | transfer (n region store leader : Nat) : Shape ⟨n, .transfer region store,
      [one leader .none ⟨n, .transferLeader, region, .none, [store], false⟩], 0⟩

theorem plan_shape {jobs : List Job} {v : View} {n : Nat} {q : Req} {j : Job} (h : plan jobs v n q = some j) : Shape j := by
  cases q with
  | create region stores => simp only [plan, Option.some.injEq] at h; subst h; exact .create _ _ _
  | drop region => cases h
  | split region child key byStore =>
    simp only [plan] at h
    split at h
    · cases h
    · split at h
      · cases h
      · split at h
        · cases h
        · cases h; exact .split _ _ _ _ _ _ _ _
  | splitInto region child =>
    simp only [plan] at h
    split at h
    · cases h
    · split at h
      · split at h
        · cases h
        · cases h; exact .splitInto _ _ _ _
      · cases h
  | merge source target =>
    simp only [plan] at h
    split at h
    · cases h
    · split at h
      · split at h
        · cases h
        · split at h
          · cases h
          · cases h; exact .merge _ _ _ _ _ _ _
      · cases h
  | addPeer region store =>
    simp only [plan] at h
    split at h
    · cases h
    · split at h
      · cases h
      · split at h
        · cases h
        · rename_i hc
          cases h; exact .addPeer _ _ _ _ _ (fun hm => hc (Or.inr hm))
  | removePeer region store =>
    simp only [plan] at h
    split at h
    · cases h
    · split at h
      · cases h
      · split at h
        · cases h
        · cases h; exact .removePeer _ _ _ _ _ (fun hm => by simpa using (List.mem_filter.mp hm).2)
  | movePeer region new old =>
    simp only [plan] at h
    split at h
    · cases h
    · split at h
      · cases h
      · split at h
        · cases h
        · rename_i hc
          cases h
          refine .movePeer _ _ _ _ _ _ (fun hm => hc (Or.inr (Or.inl hm))) ?_
          exact Decidable.not_not.mp (fun hm => hc (Or.inr (Or.inr (Or.inl hm))))
  | transfer region store =>
    simp only [plan] at h
    split at h
    · cases h
    · split at h
      · cases h
      · cases h; exact .transfer _ _ _ _

theorem dropFinal_create {v : View} {n r : Nat} {is : List Inc} {j : Job} (h : dropFinal v n r = some is) (hj : Inc.create j ∈ is) :
    ∃ q st, v.regions r = some q ∧ st ∈ q.peers ∧ j = ⟨j.id, .drop r st, [deleteTask j.id st r .none], 0⟩ := by
  unfold dropFinal at h
  split at h
  · cases h
  · rename_i q hq
    split at h
    · cases h; cases hj
    · cases h
      simp only [List.mem_cons, List.mem_map] at hj
      rcases hj with hj | ⟨k, hk, hkj⟩
      · cases hj
      · cases hkj
        obtain ⟨x, hx, rfl⟩ := List.mem_map.mp hk
        exact ⟨q, x.2, hq, (number_mem hx).2.2, rfl⟩

theorem addDrops_create {v : View} {j : Job} : ∀ {l : List Nat} {n : Nat}, Inc.create j ∈ (addDrops v n l).2 →
    ∃ r ∈ l, ∃ q st, v.regions r = some q ∧ st ∈ q.peers ∧ j = ⟨j.id, .drop r st, [deleteTask j.id st r .none], 0⟩
  | [], _, h => nomatch h
  | r :: l, n, h => by
    unfold addDrops at h
    cases hd : dropFinal v n r with
    | none => rw [hd] at h; cases h
    | some is =>
      simp only [hd] at h
      rcases List.mem_append.mp h with h | h
      · exact ⟨r, List.mem_cons_self .., dropFinal_create hd h⟩
      · obtain ⟨r', h1, h2⟩ := addDrops_create h
        exact ⟨r', List.mem_cons_of_mem _ h1, h2⟩

/-- Jobs a pass makes. -/
theorem pass_create {cap : Nat} {s : State} {v : View} {order : List Nat} {reply : Nat → Bool → Reply} {j : Job}
    (h : j ∈ creates (s.prepare cap (.pass v order reply))) :
    ∃ k ∈ s.jobs.jobs, ∃ t, k.tasks[k.next]? = some t ∧ (∀ o ∈ t.ops, o.check.Holds v) ∧ ∃ r ∈ t.drops, ∃ q st,
      v.regions r = some q ∧ st ∈ q.peers ∧ j = ⟨j.id, .drop r st, [deleteTask j.id st r .none], 0⟩ := by
  have h' : j ∈ creates (pass v cap s.jobs s.counter order reply).1 := h
  rw [creates_pass] at h'
  obtain ⟨k, hk, _, hw⟩ := processAll_inc (mem_creates.mp h')
  cases hw with
  | drop ht hp hd => exact ⟨k, hk, _, ht, hp, addDrops_create hd⟩

/-- Jobs a request makes. -/
theorem request_create {jobs : List Job} {v : View} {n : Nat} {q : Req} {j : Job} (h : j ∈ creates (request jobs v n q)) :
    plan jobs v n q = some j ∨ ∃ r, q = .drop r ∧ conflict jobs r r = false ∧ ∃ p st, v.regions r = some p ∧ st ∈ p.peers ∧
      j = ⟨j.id, .drop r st, [deleteTask j.id st r .none], 0⟩ := by
  have key : ∀ o : Option Job, j ∈ creates (o.map Inc.create).toList → o = some j := by
    intro o ho
    cases o with
    | none => cases ho
    | some k => simp [creates] at ho; rw [ho]
  cases q with
  | drop r =>
    right
    simp only [request] at h
    split at h
    · cases h
    · rename_i hc
      refine ⟨r, rfl, by simpa using hc, ?_⟩
      cases hd : dropFinal v n r with
      | none => rw [hd] at h; cases h
      | some is =>
        rw [hd] at h
        exact dropFinal_create hd (mem_creates.mp h)
  | create region stores => exact Or.inl (key _ h)
  | split region child k b => exact Or.inl (key _ h)
  | splitInto region child => exact Or.inl (key _ h)
  | merge a b => exact Or.inl (key _ h)
  | addPeer a b => exact Or.inl (key _ h)
  | removePeer a b => exact Or.inl (key _ h)
  | movePeer a b c => exact Or.inl (key _ h)
  | transfer a b => exact Or.inl (key _ h)

theorem made_shape {cap : Nat} {s : State} {h : Obs → Prop} (hr : Run cap s h) {j : Job} (hj : h (.made j)) : Shape j := by
  induction hr with
  | start => cases hj
  | step _ _ _ ih =>
    rcases hj with hj | hj
    · exact ih hj
    · cases hj with
      | request hj =>
        rcases request_create hj with hp | ⟨_, _, _, _, _, _, _, he⟩
        · exact plan_shape hp
        · rw [he]; exact .drop _ _ _
      | follow hj =>
        obtain ⟨_, _, _, _, _, _, _, _, _, _, _, he⟩ := pass_create hj
        rw [he]; exact .drop _ _ _

/-! ## Which commands are in which steps -/

/-- A step with a command of a type that the first steps do not have comes after them. -/
theorem later {A B : List Task} {u t : Task} {k : Nat} {c : Cmd} (ht : (A ++ u :: B)[k]? = some t) (hc : c ∈ t.cmds)
    (hA : ∀ w ∈ A, ∀ d ∈ w.cmds, d.type ≠ c.type) (hu : ∀ d ∈ u.cmds, d.type ≠ c.type) : A.length < k := by
  rcases Nat.lt_or_ge A.length k with h | h
  · exact h
  · exfalso
    rcases Nat.lt_or_eq_of_le h with h | h
    · rw [List.getElem?_append_left h] at ht
      exact hA t (List.mem_of_getElem? ht) c hc rfl
    · rw [h, List.getElem?_append_right (Nat.le_refl _)] at ht
      simp at ht
      subst ht
      exact hu c hc rfl

theorem at_mid {A B : List Task} {u : Task} : (A ++ u :: B)[A.length]? = some u := by
  rw [List.getElem?_append_right (Nat.le_refl _)]; simp

theorem one_cmds {store : Nat} {ch : Check} {c d : Cmd} (h : d ∈ (one store ch c).cmds) : d = c := by
  simpa [one, Task.cmds] using h

theorem await_none {cs : List (Nat × Check)} {d : Cmd} (h : d ∈ (await cs).cmds) : False := by
  rw [await_cmds] at h; cases h

theorem each_type {α : Type} {l : List α} {f : α → Nat × Check × Cmd} {ty : CmdType} (hf : ∀ a, (f a).2.2.type = ty) {d : Cmd}
    (h : d ∈ (each (l.map f)).cmds) : d.type = ty := by
  rw [each_cmds, List.map_map] at h
  obtain ⟨a, _, rfl⟩ := List.mem_map.mp h
  exact hf a

theorem hold_type {n : Nat} {l : List Nat} {region : Nat} {d : Cmd} (h : d ∈ (holdTask n l region).cmds) : d.type = .holdVector := by
  unfold holdTask at h
  exact each_type (ty := .holdVector) (by intro a; rfl) h

theorem splitVector_type {n region : Nat} {r : Rec} {t : Task} (ht : t ∈ splitVector n region r) {d : Cmd} (hd : d ∈ t.cmds) :
    d.type = .holdVector ∨ d.type = .snapshotVector := by
  unfold splitVector at ht
  split at ht
  · rcases List.mem_append.mp ht with ht | ht
    · split at ht
      · simp only [List.mem_cons, List.not_mem_nil, or_false] at ht
        rcases ht with rfl | rfl
        · unfold snapshotTask at hd
          exact Or.inr (each_type (ty := .snapshotVector) (by intro a; rfl) hd)
        · exact (await_none hd).elim
      · cases ht
    · simp only [List.mem_cons, List.not_mem_nil, or_false] at ht
      rcases ht with rfl | rfl
      · exact Or.inl (hold_type hd)
      · exact (await_none hd).elim
  · cases ht

/-- The conditions of a step that waits for the state of a region on stores. -/
theorem stateTask_holds {stores : List Nat} {region : Nat} {st : Option Region.RState} {v : View}
    (h : ∀ o ∈ (stateTask stores region st).ops, o.check.Holds v) {p : Nat} (hp : p ∈ stores) :
    ∃ m, v.metric p region = some m ∧ ∀ x, st = some x → m.state = x := by
  have := h ⟨p, .store ⟨p, region, st, .none⟩, [], false, 0⟩ (by
    simp only [stateTask, await, List.map_map, List.mem_map]
    exact ⟨p, hp, rfl⟩)
  obtain ⟨_, m, hm, h1, _⟩ := this
  exact ⟨m, hm, h1⟩

theorem indexTask_holds {stores : List Nat} {region n : Nat} {v : View}
    (h : ∀ o ∈ (indexTask stores region n).ops, o.check.Holds v) {p : Nat} (hp : p ∈ stores) :
    ∃ m, v.metric p region = some m ∧ m.hold = true ∧ m.ready = true ∧ (n ≠ 0 → m.version = n) := by
  have := h ⟨p, .store ⟨p, region, .none, some n⟩, [], false, 0⟩ (by
    simp only [indexTask, await, List.map_map, List.mem_map]
    exact ⟨p, hp, rfl⟩)
  obtain ⟨_, m, hm, _, h2⟩ := this
  exact ⟨m, hm, h2 n rfl⟩

/-- A step that sends a command to each of several stores was done. -/
theorem each_took {h : Obs → Prop} {n m job : Nat} {l : List Nat} {f : Nat × Nat → Check} {g : Nat × Nat → Cmd}
    (hd : ∀ o ∈ (each ((number n l).map (fun x => (x.2, f x, g x)))).ops, ∀ c ∈ o.cmds,
      ∃ x, h (.took x) ∧ x.job = job ∧ x.step = m ∧ For x o c) (hl : ∀ x, (g x).type.leader = false) {p : Nat} (hp : p ∈ l) :
    ∃ x k, h (.took x) ∧ x.job = job ∧ x.store = p ∧ x.cmd.plain = (g (k, p)).plain := by
  have : ∃ k, (k, p) ∈ number n l := by
    clear hd
    induction l generalizing n with
    | nil => cases hp
    | cons a l ih =>
      rcases List.mem_cons.mp hp with rfl | hp
      · exact ⟨n, List.mem_cons_self ..⟩
      · obtain ⟨k, hk⟩ := ih (n := n + 1) hp
        exact ⟨k, List.mem_cons_of_mem _ hk⟩
  obtain ⟨k, hk⟩ := this
  obtain ⟨x, h1, h2, _, h4, h5⟩ := hd ⟨p, f (k, p), [g (k, p)], false, 0⟩ (by
    simp only [each, List.map_map, List.mem_map]
    exact ⟨(k, p), hk, rfl⟩) (g (k, p)) (by simp)
  exact ⟨x, k, h1, h2, h5 (hl _), h4⟩

end Verif.Job
