import Verif.SafePoint.Inv
/-!
The invariant under the events that concern requests, and for every run.
-/
namespace Verif.SafePoint

theorem setRl_none {id v : Int} : ∀ {l : List TInc}, setRl id v l = none → id ∉ l.map TInc.id := by
  intro l
  induction l with
  | nil => intro _; simp
  | cons x l ih =>
    intro h
    simp only [List.map_cons, List.mem_cons, not_or]
    cases x with
    | update i t =>
      simp only [setRl] at h
      by_cases hi : i = id
      · rw [if_pos hi] at h; cases h
      · rw [if_neg hi] at h
        exact ⟨fun e => hi e.symm, ih (by simpa using h)⟩
    | create i n =>
      simp only [setRl] at h
      by_cases hi : i = id
      · rw [if_pos hi] at h; cases h
      · rw [if_neg hi] at h
        exact ⟨fun e => hi e.symm, ih (by simpa using h)⟩
    | delete i =>
      simp only [setRl] at h
      by_cases hi : i = id
      · rw [if_pos hi] at h; cases h
      · rw [if_neg hi] at h
        exact ⟨fun e => hi e.symm, ih (by simpa using h)⟩

/-- What `setRl` leaves: the same tenants, each part as it was or with the new resolve-lock point. -/
theorem setRl_some {id v : Int} : ∀ {l l' : List TInc}, setRl id v l = some l' →
    l'.map TInc.id = l.map TInc.id ∧
    (∀ i t, TInc.update i t ∈ l' → TInc.update i t ∈ l ∨
      (i = id ∧ ∃ t0, TInc.update i t0 ∈ l ∧ t = { t0 with rl := v })) ∧
    (∀ i t, TInc.update i t ∈ l → ∃ t', TInc.update i t' ∈ l' ∧ t'.sp = t.sp) ∧
    (∀ x t, TInc.remakes t x = true → (x ∈ l' ↔ x ∈ l)) := by
  intro l
  induction l with
  | nil => intro l' h; simp [setRl] at h
  | cons x l ih =>
    intro l' h
    have rest : ∀ y : TInc, x = y → (setRl id v l).map (x :: ·) = some l' →
        l'.map TInc.id = (x :: l).map TInc.id ∧
        (∀ i t, TInc.update i t ∈ l' → TInc.update i t ∈ x :: l ∨
          (i = id ∧ ∃ t0, TInc.update i t0 ∈ x :: l ∧ t = { t0 with rl := v })) ∧
        (∀ i t, TInc.update i t ∈ x :: l → ∃ t', TInc.update i t' ∈ l' ∧ t'.sp = t.sp) ∧
        (∀ z t, TInc.remakes t z = true → (z ∈ l' ↔ z ∈ x :: l)) := by
      intro y _ hm
      obtain ⟨m, hm1, rfl⟩ := Option.map_eq_some_iff.1 hm
      obtain ⟨h1, h2, h3, h4⟩ := ih hm1
      refine ⟨by simp [h1], ?_, ?_, ?_⟩
      · intro i t ht
        rcases List.mem_cons.1 ht with e | e
        · exact Or.inl (by simp [e])
        · rcases h2 i t e with h | ⟨a, t0, b, c⟩
          · exact Or.inl (by simp [h])
          · exact Or.inr ⟨a, t0, by simp [b], c⟩
      · intro i t ht
        rcases List.mem_cons.1 ht with e | e
        · exact ⟨t, by simp [e], rfl⟩
        · obtain ⟨t', a, b⟩ := h3 i t e
          exact ⟨t', by simp [a], b⟩
      · intro z t hz
        simp only [List.mem_cons, h4 z t hz]
    cases x with
    | update i t =>
      simp only [setRl] at h
      by_cases hi : i = id
      · rw [if_pos hi] at h
        cases h
        refine ⟨by simp [TInc.id], ?_, ?_, ?_⟩
        · intro j u hu
          rcases List.mem_cons.1 hu with e | e
          · cases e
            exact Or.inr ⟨hi, t, by simp, rfl⟩
          · exact Or.inl (by simp [e])
        · intro j u hu
          rcases List.mem_cons.1 hu with e | e
          · cases e
            exact ⟨{ t with rl := v }, by simp, rfl⟩
          · exact ⟨u, by simp [e], rfl⟩
        · intro z u hz
          cases z with
          | update _ _ => simp [TInc.remakes] at hz
          | create _ _ => simp
          | delete _ => simp
      · rw [if_neg hi] at h
        exact rest _ rfl h
    | create i n =>
      simp only [setRl] at h
      by_cases hi : i = id
      · rw [if_pos hi] at h
        cases h
        exact ⟨rfl, fun _ _ h => Or.inl h, fun _ t h => ⟨t, h, rfl⟩, fun _ _ _ => Iff.rfl⟩
      · rw [if_neg hi] at h
        exact rest _ rfl h
    | delete i =>
      simp only [setRl] at h
      by_cases hi : i = id
      · rw [if_pos hi] at h
        cases h
        exact ⟨rfl, fun _ _ h => Or.inl h, fun _ t h => ⟨t, h, rfl⟩, fun _ _ _ => Iff.rfl⟩
      · rw [if_neg hi] at h
        exact rest _ rfl h

/-- What a task must keep. -/
structure TaskInv (A : Kind → Int → Int → Prop) (th : Thread) : Prop where
  inc : OkInc A th.inc
  todo : ∀ x ∈ th.todo, OkTask A x
  fresh : ∀ x ∈ th.todo, ∀ j, x.fresh = some j → j ∉ th.inc.tenants.map TInc.id
  order : th.todo.Pairwise (fun a b => ∀ j, b.fresh = some j → a.adds ≠ some j)
  one : ∀ r, th.req = .update r → ∀ k v, Task.see k v ∈ th.todo → v = r.point k
  def' : ∀ r, th.req = .update r → ∀ k, Follows th k (r.point k)
  mem : ∀ r, th.req = .update r → ∀ t v, Task.tsp t v ∈ th.todo → (t, v) ∈ r.tsp
  tsp : ∀ r, th.req = .update r → ∀ t v, (t, v) ∈ r.tsp → t ≠ 0 → FollowsT th t v

theorem ThInv.of_task {A log th th'} (h : ThInv A log th) (hs : th.status = .eval)
    (h' : TaskInv A th') (h1 : th'.status = th.status) (h2 : th'.entry = th.entry)
    (h3 : th'.req = th.req) : ThInv A log th' where
  inc := h'.inc
  todo := h'.todo
  fresh := h'.fresh
  order := h'.order
  entry := by
    intro i hi
    rw [h2, h.early (Or.inl hs)] at hi
    cases hi
  committed := by intro i hi; rw [h1, hs] at hi; cases hi
  early := by intro _; rw [h2]; exact h.early (Or.inl hs)
  over := by
    rintro (hi | ⟨i, hi⟩ | hi) <;> rw [h1, hs] at hi <;> cases hi
  ok := by intro hi; rw [h1, hs] at hi; cases hi
  one := h'.one
  def' := h'.def'
  uniq := by rw [h3]; exact h.uniq
  mem := h'.mem
  tsp := h'.tsp

theorem Follows.tail {th : Thread} {k v x rest} (ht : th.todo = x :: rest) (h : Follows th k v)
    (h1 : x ≠ .see k v) (h2 : x ≠ .lift k v) {th' : Thread} (ht' : ∀ y ∈ rest, y ∈ th'.todo)
    (hs : th'.seen k = th.seen k) (hi : ∀ y ∈ th.inc.ids, y ∈ th'.inc.ids) : Follows th' k v := by
  unfold Follows at *
  rw [ht] at h
  grind

theorem FollowsT.tail {th : Thread} {t v x rest} (ht : th.todo = x :: rest) (h : FollowsT th t v)
    (h1 : x ≠ .tsp t v) {th' : Thread} (ht' : ∀ y ∈ rest, y ∈ th'.todo)
    (hs : th'.seenT t = th.seenT t)
    (hi : ∀ y, TInc.update t y ∈ th.inc.tenants →
      ∃ z, TInc.update t z ∈ th'.inc.tenants ∧ z.sp = y.sp) : FollowsT th' t v := by
  unfold FollowsT at *
  rw [ht] at h
  rcases h with h | ⟨w, h, h'⟩
  · rcases List.mem_cons.1 h with e | e
    · exact absurd e.symm h1
    · exact Or.inl (ht' _ e)
  · refine Or.inr ⟨w, by rw [hs]; exact h, fun hw => ?_⟩
    obtain ⟨y, hy, hy'⟩ := h' hw
    obtain ⟨z, hz, hz'⟩ := hi y hy
    exact ⟨z, hz, hz'.trans hy'⟩

theorem OkInc.add {A} {i : Inc} {x : TInc} (h : OkInc A i) (hx : ∀ id t, x = .update id t → OkT A id t)
    (hf : x.id ∉ i.tenants.map TInc.id) : OkInc A (i.addTenant x) where
  ids := h.ids
  tenants := by
    intro id t ht
    simp only [Inc.addTenant, List.mem_append, List.mem_singleton] at ht
    rcases ht with ht | ht
    · exact h.tenants id t ht
    · exact hx id t ht.symm
  nodup := by
    simp only [Inc.addTenant, List.map_append, List.map_cons, List.map_nil]
    rw [List.nodup_append]
    refine ⟨h.nodup, by simp, ?_⟩
    intro a ha b hb
    simp only [List.mem_singleton] at hb
    intro e
    rw [← hb, ← e] at hf
    exact hf ha

/-- A part of the increment is added that concerns none of the tasks to come. -/
theorem TaskInv.add {A} {log} {th : Thread} {task rest} (h : ThInv A log th) (ht : th.todo = task :: rest)
    {x : TInc} (hx : ∀ id t, x = .update id t → OkT A id t)
    (hf : x.id ∉ th.inc.tenants.map TInc.id) (ha : task.adds = some x.id)
    (h1 : ∀ k v, task ≠ .see k v) (h2 : ∀ k v, task ≠ .lift k v) (h3 : ∀ t v, task ≠ .tsp t v) :
    TaskInv A { th with todo := rest, inc := th.inc.addTenant x } where
  inc := h.inc.add hx hf
  todo := fun y hy => h.todo y (by rw [ht]; simp [hy])
  fresh := by
    intro y hy j hj
    have hp := h.order
    rw [ht, List.pairwise_cons] at hp
    have hne := hp.1 y hy j hj
    rw [ha] at hne
    have := h.fresh y (by rw [ht]; simp [hy]) j hj
    simp only [Inc.addTenant, List.map_append, List.map_cons, List.map_nil, List.mem_append,
      List.mem_singleton, not_or]
    exact ⟨this, fun e => hne (by rw [e])⟩
  order := by
    have hp := h.order
    rw [ht, List.pairwise_cons] at hp
    exact hp.2
  one := fun r hr k v hm => h.one r hr k v (by rw [ht]; exact List.mem_cons_of_mem _ hm)
  def' := fun r hr k => (h.def' r hr k).tail ht (h1 _ _) (h2 _ _) (fun _ hy => hy) rfl (fun _ hy => hy)
  mem := fun r hr t v hm => h.mem r hr t v (by rw [ht]; simp only [List.mem_cons]; exact Or.inr hm)
  tsp := fun r hr t v hm h0 => (h.tsp r hr t v hm h0).tail ht (h3 _ _) (fun _ hy => hy) rfl
    (fun y hy => ⟨y, by simp only [Inc.addTenant]; exact List.mem_append_left _ hy, rfl⟩)

/-- A task that adds nothing. -/
theorem TaskInv.skip {A} {log} {th : Thread} {task rest} (h : ThInv A log th) (ht : th.todo = task :: rest)
    (h1 : ∀ k v, task ≠ .see k v) (h2 : ∀ k v, task ≠ .lift k v)
    (h3 : ∀ t v, t ≠ 0 → task ≠ .tsp t v) (b : Bool) (o : Option Bool) :
    TaskInv A { th with todo := rest, gcStop := b, inc := { th.inc with stop := o } } where
  inc := ⟨h.inc.ids, h.inc.tenants, h.inc.nodup⟩
  todo := fun y hy => h.todo y (by rw [ht]; simp [hy])
  fresh := fun y hy => h.fresh y (by rw [ht]; simp [hy])
  order := by
    have hp := h.order
    rw [ht, List.pairwise_cons] at hp
    exact hp.2
  one := fun r hr k v hm => h.one r hr k v (by rw [ht]; exact List.mem_cons_of_mem _ hm)
  def' := fun r hr k => (h.def' r hr k).tail ht (h1 _ _) (h2 _ _) (fun _ hy => hy) rfl (fun _ hy => hy)
  mem := fun r hr t v hm => h.mem r hr t v (by rw [ht]; simp only [List.mem_cons]; exact Or.inr hm)
  tsp := fun r hr t v hm h0 => (h.tsp r hr t v hm h0).tail ht (h3 _ _ h0) (fun _ hy => hy) rfl
    (fun y hy => ⟨y, hy, rfl⟩)

/-- The read of a point of the default tenant. -/
theorem TaskInv.see {A} {log} {th : Thread} {rest k v} (h : ThInv A log th)
    (ht : th.todo = .see k v :: rest) (now sp rl : Int) (h0 : 0 ≤ now) :
    TaskInv A { th with todo := if now ≥ v then rest else .lift k v :: rest,
                        seen := put th.seen k (some now), newSp := sp, newRl := rl } := by
  have hsub : ∀ y ∈ rest, y ∈ if now ≥ v then rest else Task.lift k v :: rest := by
    intro y hy; split
    · exact hy
    · simp [hy]
  have hok := h.todo (.see k v) (by rw [ht]; simp)
  have hp := h.order
  rw [ht, List.pairwise_cons] at hp
  refine ⟨h.inc, ?_, ?_, ?_, ?_, ?_, ?_, ?_⟩
  · intro y hy
    dsimp only at hy
    split at hy
    · exact h.todo y (by rw [ht]; simp [hy])
    · rcases List.mem_cons.1 hy with e | e
      · rw [e]; exact ⟨by omega, hok⟩
      · exact h.todo y (by rw [ht]; simp [e])
  · intro y hy
    dsimp only at hy
    split at hy
    · exact h.fresh y (by rw [ht]; simp [hy])
    · rcases List.mem_cons.1 hy with e | e
      · rw [e]; intro j hj; cases hj
      · exact h.fresh y (by rw [ht]; simp [e])
  · dsimp only
    split
    · exact hp.2
    · rw [List.pairwise_cons]
      exact ⟨fun y _ j _ => by simp [Task.adds, Task.fresh], hp.2⟩
  · intro r hr j w hm
    dsimp only at hm
    refine h.one r hr j w ?_
    rw [ht]
    split at hm
    · simp [hm]
    · simp only [List.mem_cons, reduceCtorEq, false_or] at hm
      simp [hm]
  · intro r hr j
    by_cases hj : j = k
    · subst hj
      have hv : v = r.point j := h.one r hr j v (by rw [ht]; simp)
      rw [← hv]
      refine Or.inr ⟨now, put_same _ _ _, fun hlt => Or.inl ?_⟩
      dsimp only
      rw [if_neg (by omega)]
      simp
    · exact (h.def' r hr j).tail ht (by intro e; cases e; exact hj rfl) (by simp) hsub
        (put_other _ _ hj) (fun _ hy => hy)
  · intro r hr t w hm
    dsimp only at hm
    refine h.mem r hr t w ?_
    rw [ht]
    split at hm
    · simp [hm]
    · simp only [List.mem_cons, reduceCtorEq, false_or] at hm ⊢
      exact hm
  · intro r hr t w hm h0
    exact (h.tsp r hr t w hm h0).tail ht (by simp) hsub rfl (fun y hy => ⟨y, hy, rfl⟩)

theorem TaskInv.lift {A} {log} {th : Thread} {rest k v} (h : ThInv A log th)
    (ht : th.todo = .lift k v :: rest) :
    TaskInv A { th with todo := rest, inc := { th.inc with ids := th.inc.ids ++ [(k, v)] } } := by
  have hok := h.todo (.lift k v) (by rw [ht]; simp)
  have hp := h.order
  rw [ht, List.pairwise_cons] at hp
  have hF : ∀ j w, Follows th j w → Follows { th with
      todo := rest, inc := { th.inc with ids := th.inc.ids ++ [(k, v)] } } j w := by
    intro j w hf
    unfold Follows at *
    rw [ht] at hf
    grind
  refine ⟨⟨?_, h.inc.tenants, h.inc.nodup⟩, fun y hy => h.todo y (by rw [ht]; simp [hy]),
    fun y hy => h.fresh y (by rw [ht]; simp [hy]), hp.2,
    fun r hr j w hm => h.one r hr j w (by rw [ht]; exact List.mem_cons_of_mem _ hm),
    fun r hr j => hF _ _ (h.def' r hr j), ?_, ?_⟩
  · intro j w hm
    rcases List.mem_append.1 hm with e | e
    · exact h.inc.ids j w e
    · simp only [List.mem_singleton, Prod.mk.injEq] at e
      rw [e.1, e.2]; exact hok
  · intro r hr t w hm
    refine h.mem r hr t w ?_
    rw [ht]; simp only [List.mem_cons]; exact Or.inr hm
  · intro r hr t w hm h0
    exact (h.tsp r hr t w hm h0).tail ht (by simp) (fun _ hy => hy) rfl (fun y hy => ⟨y, hy, rfl⟩)

/-- The GC point of a tenant. -/
theorem TaskInv.tenantSp {A} {log} {th : Thread} {rest id v} {t : Tenant} (h : ThInv A log th)
    (ht : th.todo = .tsp id v :: rest) (hid : id ≠ 0) (hok : OkT A id t) :
    TaskInv A { th with todo := rest, seenT := put th.seenT id (some t.sp),
                        inc := if t.sp < v then th.inc.addTenant (.update id { t with sp := v })
                               else th.inc } := by
  have hA := h.todo (.tsp id v) (by rw [ht]; simp) hid
  have hf := h.fresh (.tsp id v) (by rw [ht]; simp) id (by simp [Task.fresh, hid])
  have hp := h.order
  rw [ht, List.pairwise_cons] at hp
  have hadds : (Task.tsp id v).adds = some id := by simp [Task.adds, Task.fresh, hid]
  have hinc : OkInc A (if t.sp < v then th.inc.addTenant (.update id { t with sp := v })
      else th.inc) := by
    split
    · rename_i hlt
      refine h.inc.add ?_ hf
      intro j u hu
      cases hu
      have h0 : 0 ≤ t.sp := by
        rcases hok.1 with h | h
        · omega
        · omega
      exact ⟨Or.inr ⟨by show 0 < v; omega, hA⟩, hok.2⟩
    · exact h.inc
  have hids : (if t.sp < v then th.inc.addTenant (.update id { t with sp := v })
      else th.inc).ids = th.inc.ids := by split <;> rfl
  have hF : ∀ j w, Follows th j w → Follows { th with
      todo := rest, seenT := put th.seenT id (some t.sp),
      inc := if t.sp < v then th.inc.addTenant (.update id { t with sp := v }) else th.inc } j w :=
    fun j w hf => hf.tail ht (by simp) (by simp) (fun _ hy => hy) rfl (by rw [hids]; exact fun _ h => h)
  refine ⟨hinc, fun y hy => h.todo y (by rw [ht]; simp [hy]), ?_, hp.2,
    fun r hr j w hm => h.one r hr j w (by rw [ht]; exact List.mem_cons_of_mem _ hm),
    fun r hr j => hF _ _ (h.def' r hr j), ?_, ?_⟩
  · intro y hy j hj
    have h1 := h.fresh y (by rw [ht]; simp [hy]) j hj
    have h2 := hp.1 y hy j hj
    rw [hadds] at h2
    dsimp only
    split
    · simp only [Inc.addTenant, List.map_append, List.map_cons, List.map_nil, List.mem_append,
        List.mem_singleton, not_or]
      exact ⟨h1, fun e => h2 (by rw [e]; rfl)⟩
    · exact h1
  · intro r hr u w hm
    refine h.mem r hr u w ?_
    rw [ht]; simp only [List.mem_cons]; exact Or.inr hm
  · intro r hr u w hm h0
    by_cases hu : u = id
    · subst hu
      have hv : (u, v) ∈ r.tsp := h.mem r hr u v (by rw [ht]; simp)
      have : w = v := by
        have hn := h.uniq r hr
        obtain ⟨i, hi⟩ := List.getElem?_of_mem hm
        obtain ⟨j, hj⟩ := List.getElem?_of_mem hv
        have hil := (List.getElem?_eq_some_iff.1 hi).1
        have hij : i = j := by
          refine (List.getElem?_inj (by simpa using hil) hn).1 ?_
          simp [hi, hj]
        subst hij
        rw [hi] at hj
        exact (Prod.mk.inj (Option.some.inj hj)).2
      subst this
      refine Or.inr ⟨t.sp, put_same _ _ _, fun hlt => ?_⟩
      refine ⟨{ t with sp := w }, ?_, rfl⟩
      dsimp only
      rw [if_pos hlt]
      simp [Inc.addTenant]
    · refine (h.tsp r hr u w hm h0).tail ht (by intro e; cases e; exact hu rfl) (fun _ hy => hy)
        (put_other _ _ hu) ?_
      intro y hy
      refine ⟨y, ?_, rfl⟩
      dsimp only
      split
      · simp only [Inc.addTenant]; exact List.mem_append_left _ hy
      · exact hy

/-- The resolve-lock point of a tenant that has an increment already. -/
theorem TaskInv.trl {A} {log} {th : Thread} {rest id v l} (h : ThInv A log th)
    (ht : th.todo = .trl id v :: rest) (hid : id ≠ 0) (hv : 0 < v)
    (hl : setRl id v th.inc.tenants = some l) :
    TaskInv A { th with todo := rest, inc := { th.inc with tenants := l } } := by
  have hA := h.todo (.trl id v) (by rw [ht]; simp) hid
  have hp := h.order
  rw [ht, List.pairwise_cons] at hp
  obtain ⟨h1, h2, h3, _⟩ := setRl_some hl
  refine ⟨⟨h.inc.ids, ?_, by rw [h1]; exact h.inc.nodup⟩, fun y hy => h.todo y (by rw [ht]; simp [hy]),
    ?_, hp.2, ?_, ?_, ?_, ?_⟩
  · intro i t hm
    rcases h2 i t hm with e | ⟨rfl, t0, e, rfl⟩
    · exact h.inc.tenants i t e
    · exact ⟨(h.inc.tenants i t0 e).1, Or.inr ⟨hv, hA⟩⟩
  · intro y hy j hj
    dsimp only
    rw [h1]
    exact h.fresh y (by rw [ht]; simp [hy]) j hj
  · exact fun r hr j w hm => h.one r hr j w (by rw [ht]; exact List.mem_cons_of_mem _ hm)
  · exact fun r hr j => (h.def' r hr j).tail ht (by simp) (by simp) (fun _ hy => hy) rfl (fun _ hy => hy)
  · intro r hr u w hm
    refine h.mem r hr u w ?_
    rw [ht]; simp only [List.mem_cons]; exact Or.inr hm
  · intro r hr u w hm h0
    exact (h.tsp r hr u w hm h0).tail ht (by simp) (fun _ hy => hy) rfl (fun y hy => h3 u y hy)

theorem temp_nonneg {A} {m : Kind → Option Int} (h : OkMap A m) (k : Kind) : 0 ≤ (m k).getD 0 := by
  rcases hm : m k with _ | x
  · simp
  · have := (h k x hm).1; simp; omega

theorem doTask_inv {A log n th x rest n' th'} (hl : OkLog A log) (hn : NodeInv A log n)
    (h : ThInv A log th) (hs : th.status = .eval) (ht : th.todo = x :: rest)
    (hd : doTask n { th with todo := rest } x = some (n', th')) :
    NodeInv A log n' ∧ ThInv A log th' := by
  have hts := hn.okTs hl
  cases x with
  | flag f =>
    cases f with
    | none =>
      simp only [doTask, Option.some.injEq, Prod.mk.injEq] at hd
      obtain ⟨rfl, rfl⟩ := hd
      exact ⟨hn, h.of_task hs (TaskInv.skip h ht (by simp) (by simp) (by simp) _ th.inc.stop) rfl rfl rfl⟩
    | stop =>
      simp only [doTask, Option.some.injEq, Prod.mk.injEq] at hd
      obtain ⟨rfl, rfl⟩ := hd
      refine ⟨hn, ?_⟩
      split
      · exact h.of_task hs (TaskInv.skip h ht (by simp) (by simp) (by simp) _ th.inc.stop) rfl rfl rfl
      · exact h.of_task hs (TaskInv.skip h ht (by simp) (by simp) (by simp) _ _) rfl rfl rfl
    | start =>
      simp only [doTask, Option.some.injEq, Prod.mk.injEq] at hd
      obtain ⟨rfl, rfl⟩ := hd
      refine ⟨hn, ?_⟩
      split
      · exact h.of_task hs (TaskInv.skip h ht (by simp) (by simp) (by simp) _ _) rfl rfl rfl
      · exact h.of_task hs (TaskInv.skip h ht (by simp) (by simp) (by simp) _ th.inc.stop) rfl rfl rfl
    | other => simp [doTask] at hd
  | see k v =>
    have h0 := temp_nonneg hn.temp
    cases k with
    | gc =>
      simp only [doTask] at hd
      by_cases hc : (n.temp .gc).getD 0 ≥ v
      · rw [if_pos hc] at hd
        simp only [Option.some.injEq, Prod.mk.injEq] at hd
        obtain ⟨rfl, rfl⟩ := hd
        have := TaskInv.see h ht ((n.temp .gc).getD 0) ((n.temp .gc).getD 0) th.newRl (h0 _)
        rw [if_pos hc] at this
        exact ⟨hn, h.of_task hs this rfl rfl rfl⟩
      · rw [if_neg hc] at hd
        simp only [Option.some.injEq, Prod.mk.injEq] at hd
        obtain ⟨rfl, rfl⟩ := hd
        have := TaskInv.see h ht ((n.temp .gc).getD 0) v th.newRl (h0 _)
        rw [if_neg hc] at this
        exact ⟨hn, h.of_task hs this rfl rfl rfl⟩
    | rl =>
      simp only [doTask] at hd
      by_cases hc : (n.temp .rl).getD 0 ≥ v
      · rw [if_pos hc] at hd
        simp only [Option.some.injEq, Prod.mk.injEq] at hd
        obtain ⟨rfl, rfl⟩ := hd
        have := TaskInv.see h ht ((n.temp .rl).getD 0) th.newSp ((n.temp .rl).getD 0) (h0 _)
        rw [if_pos hc] at this
        exact ⟨hn, h.of_task hs this rfl rfl rfl⟩
      · rw [if_neg hc] at hd
        simp only [Option.some.injEq, Prod.mk.injEq] at hd
        obtain ⟨rfl, rfl⟩ := hd
        have := TaskInv.see h ht ((n.temp .rl).getD 0) th.newSp v (h0 _)
        rw [if_neg hc] at this
        exact ⟨hn, h.of_task hs this rfl rfl rfl⟩
  | lift k v =>
    simp only [doTask, Option.some.injEq, Prod.mk.injEq] at hd
    obtain ⟨rfl, rfl⟩ := hd
    have hok := h.todo (.lift k v) (by rw [ht]; simp)
    exact ⟨⟨hn.applied, hn.disk, hn.stop, hn.ids, hn.mid, hn.tenants, hn.temp.raise hok⟩,
      h.of_task hs (TaskInv.lift h ht) rfl rfl rfl⟩
  | tsp id v =>
    simp only [doTask] at hd
    by_cases hid : id = 0
    · rw [if_pos hid] at hd
      simp only [Option.some.injEq, Prod.mk.injEq] at hd
      obtain ⟨rfl, rfl⟩ := hd
      subst hid
      exact ⟨hn, h.of_task hs (TaskInv.skip h ht (by simp) (by simp)
        (fun t w h0 e => h0 (by cases e; rfl)) th.gcStop th.inc.stop) rfl rfl rfl⟩
    · rw [if_neg hid] at hd
      rcases htn : n.tenants id with _ | t
      · simp [htn] at hd
      · simp only [htn] at hd
        have := TaskInv.tenantSp h ht hid (hts id t htn)
        by_cases hlt : t.sp < v
        · rw [if_pos hlt] at hd this
          simp only [Option.some.injEq, Prod.mk.injEq] at hd
          obtain ⟨rfl, rfl⟩ := hd
          exact ⟨hn, h.of_task hs this rfl rfl rfl⟩
        · rw [if_neg hlt] at hd this
          simp only [Option.some.injEq, Prod.mk.injEq] at hd
          obtain ⟨rfl, rfl⟩ := hd
          exact ⟨hn, h.of_task hs this rfl rfl rfl⟩
  | trl id v =>
    simp only [doTask] at hd
    have skip : n = n' → { th with todo := rest } = th' → NodeInv A log n' ∧ ThInv A log th' := by
      rintro rfl rfl
      exact ⟨hn, h.of_task hs (TaskInv.skip h ht (by simp) (by simp) (by simp) th.gcStop th.inc.stop)
        rfl rfl rfl⟩
    by_cases hid : id = 0
    · rw [if_pos hid] at hd
      simp only [Option.some.injEq, Prod.mk.injEq] at hd
      exact skip hd.1 hd.2
    · rw [if_neg hid] at hd
      rcases htn : n.tenants id with _ | t
      · simp [htn] at hd
      · simp only [htn] at hd
        by_cases hlt : t.rl < v
        · rw [if_pos hlt] at hd
          have hok := hts id t htn
          have hv : 0 < v := by
            rcases hok.2 with h | h
            · omega
            · omega
          rcases hsr : setRl id v th.inc.tenants with _ | l
          · simp only [hsr, Option.some.injEq, Prod.mk.injEq] at hd
            obtain ⟨rfl, rfl⟩ := hd
            refine ⟨hn, h.of_task hs (TaskInv.add h ht (x := .update id { t with rl := v }) ?_
              (setRl_none hsr) (by simp [Task.adds, TInc.id]) (by simp) (by simp) (by simp)) rfl rfl rfl⟩
            intro i u e
            cases e
            exact ⟨hok.1, Or.inr ⟨hv, h.todo (.trl id v) (by rw [ht]; simp) hid⟩⟩
          · simp only [hsr, Option.some.injEq, Prod.mk.injEq] at hd
            obtain ⟨rfl, rfl⟩ := hd
            exact ⟨hn, h.of_task hs (TaskInv.trl h ht hid hv hsr) rfl rfl rfl⟩
        · rw [if_neg hlt] at hd
          simp only [Option.some.injEq, Prod.mk.injEq] at hd
          exact skip hd.1 hd.2
  | create id name =>
    simp only [doTask] at hd
    by_cases hid : id = 0
    · rw [if_pos hid] at hd
      simp only [Option.some.injEq, Prod.mk.injEq] at hd
      obtain ⟨rfl, rfl⟩ := hd
      exact ⟨hn, h.of_task hs (TaskInv.skip h ht (by simp) (by simp) (by simp) th.gcStop th.inc.stop)
        rfl rfl rfl⟩
    · rw [if_neg hid] at hd
      rcases htn : n.tenants id with _ | t
      · simp only [htn, Option.some.injEq, Prod.mk.injEq] at hd
        obtain ⟨rfl, rfl⟩ := hd
        exact ⟨hn, h.of_task hs (TaskInv.add h ht (x := .create id name) (fun _ _ e => by cases e)
          (h.fresh (.create id name) (by rw [ht]; simp) id rfl) rfl (by simp) (by simp) (by simp)) rfl rfl rfl⟩
      · simp [htn] at hd
  | drop id =>
    simp only [doTask] at hd
    by_cases hid : id ≤ 0
    · simp [hid] at hd
    · rw [if_neg hid] at hd
      rcases htn : n.tenants id with _ | t
      · simp [htn] at hd
      · simp only [htn, Option.some.injEq, Prod.mk.injEq] at hd
        obtain ⟨rfl, rfl⟩ := hd
        exact ⟨hn, h.of_task hs (TaskInv.add h ht (x := .delete id) (fun _ _ e => by cases e)
          (h.fresh (.drop id) (by rw [ht]; simp) id rfl) rfl (by simp) (by simp) (by simp)) rfl rfl rfl⟩
  | rename id name =>
    simp only [doTask] at hd
    by_cases hid : id ≤ 0
    · simp [hid] at hd
    · rw [if_neg hid] at hd
      rcases htn : n.tenants id with _ | t
      · simp [htn] at hd
      · simp only [htn, Option.some.injEq, Prod.mk.injEq] at hd
        obtain ⟨rfl, rfl⟩ := hd
        exact ⟨hn, h.of_task hs (TaskInv.add h ht (x := .update id ⟨name, 0, 0⟩)
          (fun _ _ e => by cases e; exact ⟨Or.inl rfl, Or.inl rfl⟩)
          (h.fresh (.rename id name) (by rw [ht]; simp) id rfl) rfl (by simp) (by simp) (by simp)) rfl rfl rfl⟩

theorem ThInv.err {A log th} (h : ThInv A log th) : ThInv A log { th with status := .err } where
  inc := h.inc
  todo := h.todo
  fresh := h.fresh
  order := h.order
  entry := h.entry
  committed := fun i hi => by cases hi
  early := by rintro (hi | hi) <;> cases hi
  over := by rintro (hi | ⟨i, hi⟩ | hi) <;> cases hi
  ok := fun hi => by cases hi
  one := h.one
  def' := h.def'
  uniq := h.uniq
  mem := h.mem
  tsp := h.tsp

theorem Inv.eval {A s k} (h : Inv A s) : Inv A (doEval s k) := by
  unfold doEval
  split
  · exact h
  · rename_i th hk
    have hth := h.thread hk
    by_cases hs : th.status = .eval
    · rw [if_pos hs]
      split
      · exact h
      · rename_i x rest ht
        split
        · exact h.setThread hth.err
        · rename_i n' th' hd
          obtain ⟨h1, h2⟩ := doTask_inv h.log (h.nodes _) hth hs ht hd
          exact (h.setNode h1).setThread h2
    · rw [if_neg hs]; exact h

theorem Inv.refuse {A s k} (h : Inv A s) : Inv A (doRefuse s k) := by
  unfold doRefuse
  split
  · exact h
  · rename_i th hk
    split
    · exact h.setThread (h.thread hk).err
    · exact h

theorem Inv.lose {A s k} (h : Inv A s) : Inv A (doLose s k) := by
  unfold doLose
  split
  · exact h
  · rename_i th hk
    split
    · exact h.setThread (h.thread hk).err
    · exact h.setThread (h.thread hk).err
    · exact h

theorem Inv.propose {A s k} (h : Inv A s) : Inv A (doPropose s k) := by
  unfold doPropose
  split
  · exact h
  · rename_i th hk
    by_cases hc : th.status = .eval ∧ th.todo = []
    · rw [if_pos hc]
      have hth := h.thread hk
      refine h.setThread ⟨hth.inc, hth.todo, hth.fresh, hth.order, hth.entry, ?_,
        (fun _ => hth.early (Or.inl hc.1)), (fun _ => hc.2), ?_, hth.one, hth.def', hth.uniq, hth.mem, hth.tsp⟩
      · intro i hi
        dsimp only at hi
        split at hi <;> cases hi
      · intro hi _
        dsimp only at hi ⊢
        split at hi
        · assumption
        · cases hi
    · rw [if_neg hc]; exact h

theorem Inv.answer {A s k} (h : Inv A s) : Inv A (doAnswer s k) := by
  unfold doAnswer
  split
  · exact h
  · rename_i th hk
    split
    · rename_i i hi
      have hth := h.thread hk
      split
      · refine h.setThread ⟨hth.inc, hth.todo, hth.fresh, hth.order, hth.entry, (fun i hi => by cases hi),
          ?_, (fun _ => hth.over (Or.inr (Or.inl ⟨i, hi⟩))), ?_, hth.one, hth.def', hth.uniq, hth.mem, hth.tsp⟩
        · rintro (hi | hi) <;> cases hi
        · intro _ he
          rw [show th.entry = some i from hth.committed i hi] at he
          cases he
      · exact h
    · exact h

theorem Inv.commit {A s k} (h : Inv A s) : Inv A (doCommit s k) := by
  unfold doCommit
  split
  · exact h
  · rename_i th hk
    by_cases hc : th.status = .proposed
    · rw [if_pos hc]
      have hth := h.thread hk
      refine ⟨?_, fun n => (h.nodes n).append, ?_, fun f hf => (h.snaps f hf).append, h.stores, h.runs⟩
      · intro e he
        rcases List.mem_append.1 he with h1 | h1
        · exact h.log e h1
        · rw [List.mem_singleton.1 h1]; exact hth.inc
      · intro t ht
        rcases List.mem_or_eq_of_mem_set ht with h1 | h1
        · exact (h.threads t h1).append
        · rw [h1]
          refine ⟨hth.inc, hth.todo, hth.fresh, hth.order, ?_, ?_, ?_, (fun _ => hth.over (Or.inl hc)), ?_,
            hth.one, hth.def', hth.uniq, hth.mem, hth.tsp⟩
          · intro i hi
            cases hi
            simp
          · intro i hi
            cases hi
            rfl
          · rintro (hi | hi) <;> cases hi
          · intro hi; cases hi
    · rw [if_neg hc]; exact h

/-- `A` knows what a request asks for. -/
def Knows (A : Kind → Int → Int → Prop) : Req → Prop
  | .update r => A .gc 0 r.sp ∧ A .rl 0 r.rl ∧ (∀ t v, (t, v) ∈ r.tsp → t ≠ 0 → A .gc t v) ∧
      (∀ t v, (t, v) ∈ r.trl → t ≠ 0 → A .rl t v)
  | _ => True

theorem pairwise_tsp {l : List (Int × Int)} (h : (l.map (·.1)).Nodup) :
    (l.map (fun p => Task.tsp p.1 p.2)).Pairwise (fun a b => ∀ j, b.fresh = some j → a.adds ≠ some j) := by
  rw [List.pairwise_map]
  rw [List.Nodup, List.pairwise_map] at h
  refine h.imp ?_
  intro a b hab j hj hj'
  simp only [Task.fresh, Task.adds] at hj hj'
  by_cases hb : b.1 = 0
  · simp [hb] at hj
  · by_cases ha : a.1 = 0
    · simp [ha] at hj'
    · rw [if_neg hb] at hj
      rw [if_neg ha] at hj'
      exact hab (Option.some.inj (hj'.trans hj.symm))

theorem Inv.request {A s n r} (h : Inv A s) (hA : Knows A r) : Inv A (doRequest s n r) := by
  unfold doRequest
  refine dite ((s.nodes n).leader = true ∧ r.wf = true) (fun hc => ?_)
    (fun hc => by rw [if_neg hc]; exact h)
  rw [if_pos hc]
  refine ⟨h.log, h.nodes, ?_, h.snaps, h.stores, h.runs⟩
  intro th hth
  rcases List.mem_append.1 hth with h1 | h1
  · exact h.threads th h1
  rw [List.mem_singleton] at h1
  subst h1
  have hwf := hc.2
  constructor
  · exact ⟨fun _ _ h => by simp at h, fun _ _ h => by simp at h, by simp⟩
  · intro x hx
    cases r with
    | update r =>
      obtain ⟨a1, a2, a3, a4⟩ := hA
      simp only [Req.tasks, List.cons_append, List.nil_append, List.mem_cons, List.mem_append,
        List.mem_map] at hx
      rcases hx with rfl | rfl | rfl | ⟨p, hp, rfl⟩ | ⟨p, hp, rfl⟩
      · trivial
      · exact a1
      · exact a2
      · exact fun h0 => a3 _ _ hp h0
      · exact fun h0 => a4 _ _ hp h0
    | create id name => simp only [Req.tasks, List.mem_singleton] at hx; subst hx; trivial
    | drop id => simp only [Req.tasks, List.mem_singleton] at hx; subst hx; trivial
    | rename id name => simp only [Req.tasks, List.mem_singleton] at hx; subst hx; trivial
  · intro x hx j hj; simp
  · cases r with
    | update r =>
      simp only [Req.wf, Bool.and_eq_true, decide_eq_true_eq] at hwf
      have hp := pairwise_tsp hwf.1
      simp only [Req.tasks, List.cons_append, List.nil_append]
      refine List.pairwise_cons.2 ⟨fun _ _ _ _ => by simp [Task.adds, Task.fresh], ?_⟩
      refine List.pairwise_cons.2 ⟨fun _ _ _ _ => by simp [Task.adds, Task.fresh], ?_⟩
      refine List.pairwise_cons.2 ⟨fun _ _ _ _ => by simp [Task.adds, Task.fresh], ?_⟩
      rw [List.pairwise_append]
      refine ⟨hp, ?_, ?_⟩
      · rw [List.pairwise_map]
        exact List.pairwise_of_forall_sublist (fun _ j hj => by simp [Task.fresh] at hj)
      · intro a _ b hb j hj
        obtain ⟨p, _, rfl⟩ := List.mem_map.1 hb
        simp [Task.fresh] at hj
    | create id name => simp [Req.tasks]
    | drop id => simp [Req.tasks]
    | rename id name => simp [Req.tasks]
  · intro i hi; cases hi
  · intro i hi; cases hi
  · intro _; rfl
  · rintro (hi | ⟨i, hi⟩ | hi) <;> cases hi
  · intro hi; cases hi
  · intro r' hr k v hm
    cases hr
    simp only [Req.tasks, List.cons_append, List.nil_append, List.mem_cons, List.mem_append,
      List.mem_map, reduceCtorEq, false_or, Task.see.injEq, and_false, exists_const, or_false] at hm
    rcases hm with ⟨rfl, rfl⟩ | ⟨rfl, rfl⟩ <;> rfl
  · intro r' hr k
    cases hr
    cases k <;> exact Or.inl (by simp [Req.tasks, Upd.point])
  · intro r' hr
    cases hr
    simp only [Req.wf, Bool.and_eq_true, decide_eq_true_eq] at hwf
    exact hwf.1
  · intro r' hr t v hm
    cases hr
    simp only [Req.tasks, List.cons_append, List.nil_append, List.mem_cons, List.mem_append,
      List.mem_map, reduceCtorEq, false_or, Task.tsp.injEq, and_false, exists_const, or_false] at hm
    obtain ⟨p, hp, rfl, rfl⟩ := hm
    exact hp
  · intro r' hr t v hm _
    cases hr
    exact Or.inl (by simp only [Req.tasks, List.mem_append, List.mem_map]; exact Or.inl (Or.inr ⟨(t, v), hm, rfl⟩))

theorem step_inv {A s e} (h : Inv A s) (hA : ∀ n r, e = .request n r → Knows A r) :
    Inv A (step s e) := by
  cases e with
  | request n r => exact h.request (hA n r rfl)
  | eval k => exact h.eval
  | refuse k => exact h.refuse
  | propose k => exact h.propose
  | commit k => exact h.commit
  | lose k => exact h.lose
  | answer k => exact h.answer
  | begin n => exact h.begin
  | tenant n => exact h.tenant
  | finish n => exact h.finish
  | lead n => exact h.lead
  | unlead n => exact h.unlead
  | crash n => exact h.crash
  | save n => exact h.save
  | install n i => exact h.install
  | poll i n => exact h.poll
  | recv i => exact h.recv
  | drop i => exact h.drop
  | gcBegin i w => exact h.gcBegin
  | gcResume i => exact h.gcResume
  | gcRun i t => exact h.gcRun
  | gcEnd i => exact h.gcEnd

theorem init_inv {A} : Inv A Sys.init where
  log := fun _ h => by simp [Sys.init] at h
  nodes := fun _ => ⟨Nat.le_refl _, rfl, rfl, fun _ => rfl, (fun _ h => by cases h),
    ⟨0, Nat.le_refl _, Nat.zero_le _, rfl⟩, (fun _ _ h => by cases h)⟩
  threads := fun _ h => by simp [Sys.init] at h
  snaps := fun _ h => by simp [Sys.init] at h
  stores := fun _ => ⟨(fun _ _ h => by cases h), (fun _ _ h => by cases h), (fun _ h => by cases h),
    (fun _ _ h => by cases h)⟩
  runs := fun _ _ _ h => by simp [Sys.init] at h

theorem run_inv_from {A} {evs : List Ev} : ∀ {s : Sys}, Inv A s →
    (∀ n r, Ev.request n r ∈ evs → Knows A r) → Inv A (run s evs) := by
  induction evs with
  | nil => intro s h _; exact h
  | cons e evs ih =>
    intro s h hA
    refine ih (s := step s e) (step_inv h ?_) (fun n r hm => hA n r (by simp [hm]))
    intro n r he
    exact hA n r (by simp [he])

theorem knows_asked {evs : List Ev} {n : Nat} {r : Req} (h : Ev.request n r ∈ evs) :
    Knows (Asked evs) r := by
  cases r with
  | update r =>
    refine ⟨⟨n, r, h, by simp⟩, ⟨n, r, h, by simp⟩, ?_, ?_⟩
    · intro t v hm h0; exact ⟨n, r, h, by simp [h0, hm]⟩
    · intro t v hm h0; exact ⟨n, r, h, by simp [h0, hm]⟩
  | create _ _ => trivial
  | drop _ => trivial
  | rename _ _ => trivial

theorem run_inv (evs : List Ev) : Inv (Asked evs) (run Sys.init evs) :=
  run_inv_from init_inv (fun _ _ h => knows_asked h)

theorem run_append (s : Sys) (a b : List Ev) : run s (a ++ b) = run (run s a) b := by
  simp [run]

theorem run_inv_mid (a b : List Ev) : Inv (Asked (a ++ b)) (run Sys.init a) :=
  run_inv_from init_inv (fun _ _ h => knows_asked (List.mem_append_left _ h))

end Verif.SafePoint
