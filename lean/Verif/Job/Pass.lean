import Verif.Job.Plan

/-!
# Jobs of the coordinator: passes over the jobs, and runs (lemmas)
-/

namespace Verif.Job

/-! ## What a pass sends and writes -/

theorem gen_mem {cap : Nat} {acc : List Sent} {x y : Sent} (h : y ∈ gen cap acc x) : y ∈ acc ∨ y = x := by
  unfold gen at h
  split at h
  · exact Or.inl h
  · rcases List.mem_append.mp h with h | h
    · exact Or.inl h
    · exact Or.inr (by simpa using h)

theorem gens_mem {cap : Nat} {y : Sent} : ∀ {l acc : List Sent}, y ∈ l.foldl (gen cap) acc → y ∈ acc ∨ y ∈ l
  | [], _, h => Or.inl h
  | x :: l, acc, h => by
    rcases gens_mem (l := l) h with h | h
    · rcases gen_mem h with h | h
      · exact Or.inl h
      · exact Or.inr (by rw [h]; exact List.mem_cons_self ..)
    · exact Or.inr (List.mem_cons_of_mem _ h)

/-- A command sent for a job that is in the table. -/
structure Due (v : View) (j : Job) (x : Sent) : Prop where
  job : x.job = j.id
  step : x.step = j.next
  task : ∃ t, j.tasks[j.next]? = some t ∧ (∀ o ∈ t.ops, o.check.Holds v) ∧ ∃ o ∈ t.ops, x.store = o.store ∧ x.cmd ∈ o.cmds

theorem sends_mem {t : Task} {a b : Nat} {x : Sent} (h : x ∈ t.sends a b) :
    x.job = a ∧ x.step = b ∧ ∃ o ∈ t.ops, x.store = o.store ∧ x.cmd ∈ o.cmds := by
  obtain ⟨o, ho, hx⟩ := List.mem_flatMap.mp h
  obtain ⟨c, hc, rfl⟩ := List.mem_map.mp hx
  exact ⟨rfl, rfl, o, ho, rfl, hc⟩

/-- An increment a pass writes for a job, apart from the answers. -/
inductive Wrote (v : View) (j : Job) : Inc → Prop
  | delete : j.next = j.tasks.length → Wrote v j (.delete j.id)
  | update {t} : j.tasks[j.next]? = some t → (∀ o ∈ t.ops, o.check.Holds v) → t.cmds = [] →
      Wrote v j (.update { j with next := j.next + 1 })
  | drop {t n i} : j.tasks[j.next]? = some t → (∀ o ∈ t.ops, o.check.Holds v) → i ∈ (addDrops v n t.drops).2 → Wrote v j i

theorem all_pass {v : View} {t : Task} (h : ¬ t.ops.all (fun o => o.check.pass v) = false) : ∀ o ∈ t.ops, o.check.Holds v := by
  intro o ho
  have : t.ops.all (fun o => o.check.pass v) = true := by simpa using h
  exact (pass_iff v _).mp (List.all_eq_true.mp this o ho)

theorem processJob_inc {v : View} {cap n : Nat} {j : Job} {acc : List Sent} {i : Inc} (h : i ∈ (processJob v cap n j acc).1) :
    Wrote v j i := by
  unfold processJob at h
  split at h
  · rename_i hn
    have : i = .delete j.id := by simpa using h
    rw [this]; exact .delete hn
  · split at h
    · cases h
    · rename_i t ht
      split at h
      · cases h
      · rename_i hp
        have hp' := all_pass hp
        simp only at h
        split at h
        · exact .drop ht hp' h
        · split at h
          · rename_i hc
            rcases List.mem_append.mp h with h | h
            · exact .drop ht hp' h
            · have : i = .update { j with next := j.next + 1 } := by simpa using h
              rw [this]; exact .update ht hp' (List.isEmpty_iff.mp hc)
          · exact .drop ht hp' h

theorem processJob_sent {v : View} {cap n : Nat} {j : Job} {acc : List Sent} {x : Sent} (h : x ∈ (processJob v cap n j acc).2) :
    x ∈ acc ∨ Due v j x := by
  unfold processJob at h
  split at h
  · exact Or.inl h
  · split at h
    · exact Or.inl h
    · rename_i t ht
      split at h
      · exact Or.inl h
      · rename_i hp
        have key : ∀ {y : Sent}, y ∈ (t.sends j.id j.next).foldl (gen cap) acc → y ∈ acc ∨ Due v j y := by
          intro y hy
          rcases gens_mem hy with hy | hy
          · exact Or.inl hy
          · obtain ⟨h1, h2, h3⟩ := sends_mem hy
            exact Or.inr ⟨h1, h2, t, ht, all_pass hp, h3⟩
        simp only at h
        split at h
        · exact key h
        · split at h <;> exact key h

theorem processAll_inc {v : View} {cap : Nat} {s : Jobs} {i : Inc} : ∀ {ids : List Nat} {n : Nat} {acc : List Sent},
    i ∈ (processAll v cap s n ids acc).1 → ∃ j ∈ s.jobs, j.id ∈ ids ∧ Wrote v j i
  | [], _, _, h => nomatch h
  | id :: ids, n, acc, h => by
    unfold processAll at h
    cases hg : s.get id with
    | none =>
      simp only [hg] at h
      obtain ⟨j, h1, h2, h3⟩ := processAll_inc h
      exact ⟨j, h1, List.mem_cons_of_mem _ h2, h3⟩
    | some j =>
      simp only [hg] at h
      rcases List.mem_append.mp h with h | h
      · obtain ⟨h1, h2⟩ := get_some hg
        exact ⟨j, h1, by rw [h2]; exact List.mem_cons_self .., processJob_inc h⟩
      · obtain ⟨j, h1, h2, h3⟩ := processAll_inc h
        exact ⟨j, h1, List.mem_cons_of_mem _ h2, h3⟩

theorem processAll_sent {v : View} {cap : Nat} {s : Jobs} {x : Sent} : ∀ {ids : List Nat} {n : Nat} {acc : List Sent},
    x ∈ (processAll v cap s n ids acc).2 → x ∈ acc ∨ ∃ j ∈ s.jobs, j.id ∈ ids ∧ Due v j x
  | [], _, _, h => Or.inl h
  | id :: ids, n, acc, h => by
    unfold processAll at h
    cases hg : s.get id with
    | none =>
      simp only [hg] at h
      rcases processAll_sent h with h | ⟨j, h1, h2, h3⟩
      · exact Or.inl h
      · exact Or.inr ⟨j, h1, List.mem_cons_of_mem _ h2, h3⟩
    | some j =>
      simp only [hg] at h
      obtain ⟨h1, h2⟩ := get_some hg
      rcases processAll_sent h with h | ⟨j, h1, h2, h3⟩
      · rcases processJob_sent h with h | h
        · exact Or.inl h
        · exact Or.inr ⟨j, h1, by rw [h2]; exact List.mem_cons_self .., h⟩
      · exact Or.inr ⟨j, h1, List.mem_cons_of_mem _ h2, h3⟩

theorem sendTo_inc {xs : List Sent} {r : Reply} {i : Inc} (h : i ∈ sendTo xs r) :
    ∃ f, r = some f ∧ ∃ x ∈ xs, ∃ a, f x.cmd = some a ∧ i ∈ x.result a := by
  cases r with
  | none => cases h
  | some f =>
    obtain ⟨x, hx, hi⟩ := List.mem_flatMap.mp h
    cases ha : f x.cmd with
    | none => rw [ha] at hi; cases hi
    | some a => rw [ha] at hi; exact ⟨f, rfl, x, hx, a, ha, hi⟩

/-- The answers. -/
theorem sendAll_inc {acc : List Sent} {stores : List Nat} {reply : Nat → Bool → Reply} {i : Inc}
    (h : i ∈ sendAll acc stores reply) : ∃ x ∈ acc, ∃ a, answer reply x = some a ∧ i ∈ x.result a := by
  rcases List.mem_append.mp h with h | h
  · obtain ⟨s, _, hi⟩ := List.mem_flatMap.mp h
    obtain ⟨f, hf, x, hx, a, ha, hr⟩ := sendTo_inc hi
    obtain ⟨hx1, hx2⟩ := List.mem_filter.mp hx
    simp only [Bool.and_eq_true, decide_eq_true_eq, Sent.isCreate] at hx2
    refine ⟨x, hx1, a, ?_, hr⟩
    unfold answer
    rw [hx2.1, decide_eq_true hx2.2, hf]; exact ha
  · obtain ⟨s, _, hi⟩ := List.mem_flatMap.mp h
    obtain ⟨f, hf, x, hx, a, ha, hr⟩ := sendTo_inc hi
    have hx' : x ∈ acc.filter (fun x => decide (x.store = s) && !x.isCreate) := by
      rcases List.mem_append.mp hx with hx | hx <;> exact (List.mem_filter.mp hx).1
    obtain ⟨hx1, hx2⟩ := List.mem_filter.mp hx'
    simp only [Bool.and_eq_true, decide_eq_true_eq, Sent.isCreate, Bool.not_eq_true', decide_eq_false_iff_not] at hx2
    refine ⟨x, hx1, a, ?_, hr⟩
    unfold answer
    rw [hx2.1, decide_eq_false hx2.2, hf]; exact ha

/-! ## New jobs of a pass -/

theorem new_processJob (v : View) (cap n : Nat) (j : Job) (acc : List Sent) :
    New (creates (processJob v cap n j acc).1) n (n + (processJob v cap n j acc).1.length) := by
  unfold processJob
  split
  · exact (New.nil n).weaken (by omega)
  · split
    · exact New.nil n
    · rename_i t ht
      split
      · exact New.nil n
      · have h := new_addDrops v t.drops n
        simp only
        split
        · exact h
        · split
          · rw [creates_append]
            simp only [creates, List.append_nil, List.length_append]
            exact h.weaken (by omega)
          · exact h

theorem new_processAll (v : View) (cap : Nat) (s : Jobs) : ∀ (ids : List Nat) (n : Nat) (acc : List Sent),
    ∃ m, New (creates (processAll v cap s n ids acc).1) n m
  | [], n, _ => ⟨n, New.nil n⟩
  | id :: ids, n, acc => by
    unfold processAll
    cases hg : s.get id with
    | none => exact new_processAll v cap s ids n acc
    | some j =>
      simp only [creates_append]
      obtain ⟨m, hm⟩ := new_processAll v cap s ids (n + (processJob v cap n j acc).1.length) (processJob v cap n j acc).2
      exact ⟨m, (new_processJob v cap n j acc).append hm⟩

theorem result_not_create {x : Sent} {a : Res} {i : Inc} (h : i ∈ x.result a) (j : Job) : i ≠ .create j := by
  intro he; subst he
  cases a with
  | code c => simp [Sent.result] at h
  | notLeader s =>
    simp only [Sent.result] at h
    split at h
    · cases h
    · simp at h

theorem creates_pass (v : View) (cap : Nat) (s : Jobs) (n : Nat) (order : List Nat) (reply : Nat → Bool → Reply) :
    creates (pass v cap s n order reply).1 = creates (processAll v cap s n order []).1 := by
  unfold pass
  simp only [creates_append]
  rw [creates_nil (e := sendAll _ _ _), List.append_nil]
  intro i hi j
  obtain ⟨x, _, a, _, hr⟩ := sendAll_inc hi
  exact result_not_create hr j

theorem prepare_new (cap : Nat) (s : State) (e : Ev) : ∃ m, New (creates (s.prepare cap e)) s.counter m := by
  cases e with
  | request v q => exact new_request _ _ _ _
  | pass v order reply =>
    show ∃ m, New (creates (pass v cap s.jobs s.counter order reply).1) s.counter m
    rw [creates_pass]; exact new_processAll _ _ _ _ _ _
  | report j c =>
    refine ⟨s.counter, ?_⟩
    have : creates (s.prepare cap (.report j c)) = [] := by
      simp only [State.prepare]; split <;> rfl
    rw [this]; exact New.nil _
  | clean id =>
    refine ⟨s.counter, ?_⟩
    have : creates (s.prepare cap (.clean id)) = [] := by
      apply creates_nil
      intro i hi j
      obtain ⟨k, _, rfl⟩ := List.mem_map.mp hi
      intro h; cases h
    rw [this]; exact New.nil _
  | commit i => exact ⟨_, New.nil _⟩
  | lose i => exact ⟨_, New.nil _⟩

/-! ## Runs -/

/-- What holds in every run. -/
structure Inv (h : Obs → Prop) (s : State) : Prop where
  hist : Hist h
  bound : ∀ j, h (.made j) → j.id < s.counter
  tab : Tab h s.jobs
  pend : ∀ e ∈ s.pending, ∀ i ∈ e, IncOk h i

/-- Seeing more. -/
def More (cap : Nat) (s : State) (h : Obs → Prop) (e : Ev) : Obs → Prop := fun o => h o ∨ Shows cap s e o

theorem shows_made {cap : Nat} {s : State} {e : Ev} {j : Job} : Shows cap s e (.made j) → j ∈ creates (s.prepare cap e) := by
  intro h; cases h <;> assumption

theorem made_shows {cap : Nat} {s : State} {e : Ev} {j : Job} (h : j ∈ creates (s.prepare cap e)) : Shows cap s e (.made j) := by
  cases e with
  | request v q => exact .request h
  | pass v order reply => exact .follow h
  | report a b =>
    have : creates (s.prepare cap (.report a b)) = [] := by
      simp only [State.prepare]; split <;> rfl
    rw [this] at h; cases h
  | clean id =>
    obtain ⟨k, _, hk⟩ := List.mem_map.mp (mem_creates.mp h)
    cases hk
  | commit i => cases h
  | lose i => cases h

/-- A job in the table, with what is seen of a pass. -/
theorem pass_sent {cap : Nat} {s : State} {h : Obs → Prop} (hi : Inv h s) {v : View} {order : List Nat} {reply : Nat → Bool → Reply}
    {x : Sent} (hx : x ∈ s.sends cap (.pass v order reply)) :
    ∃ j j0, j ∈ s.jobs.jobs ∧ j.id ∈ order ∧ Ok h j0 j ∧ Due v j x := by
  rcases processAll_sent (show x ∈ (processAll v cap s.jobs s.counter order []).2 from hx) with hx | ⟨j, h1, h2, h3⟩
  · cases hx
  · obtain ⟨j0, h0⟩ := hi.tab.ok j h1
    exact ⟨j, j0, h1, h2, h0, h3⟩

theorem sentOk_of_due {h h' : Obs → Prop} (hm : ∀ o, h o → h' o) {v : View} {j j0 : Job} {x : Sent} (ho : Ok h j0 j) (hd : Due v j x)
    (hl : h' (.looked j.id j.next v)) : SentOk h' x := by
  obtain ⟨t, ht, hp, o, hot, hst, hc⟩ := hd.task
  obtain ⟨t0, ht0, htl⟩ := ho.like.get ht
  obtain ⟨o0, ho0, c0, hc0, he, hs0⟩ := htl.place o hot x.cmd hc
  refine ⟨j0, hm _ ho.made, by rw [hd.job, ho.like.id], t0, by rw [hd.step]; exact ht0, ?_, ?_, ?_⟩
  · exact ⟨o0, ho0, c0, hc0, he.symm, fun hf => by rw [hst, hs0 (by rw [← plain_type he]; exact hf)]⟩
  · rw [hd.step, ← ho.like.id]; exact ⟨v, hl, htl.holds hp⟩
  · intro m hlt; rw [hd.step] at hlt; exact (ho.done m hlt).mono hm

theorem hist_more {cap : Nat} {s : State} {h : Obs → Prop} (hi : Inv h s) (e : Ev) : Hist (More cap s h e) := by
  obtain ⟨m, hnew⟩ := prepare_new cap s e
  have hmono : ∀ o, h o → More cap s h e o := fun o ho => Or.inl ho
  have hsent : ∀ x, More cap s h e (.sent x) → SentOk (More cap s h e) x := by
    intro x hx
    rcases hx with hx | hx
    · exact (hi.hist.sent x hx).mono hmono
    · cases hx with
      | sent hx =>
        obtain ⟨j, j0, h1, h2, h3, h4⟩ := pass_sent hi hx
        exact sentOk_of_due hmono h3 h4 (Or.inr (.looked h1 h2))
  refine ⟨?_, ?_, hsent, ?_⟩
  · intro a b ha hb hab
    rcases ha with ha | ha <;> rcases hb with hb | hb
    · exact hi.hist.uniq a b ha hb hab
    · have := hi.bound a ha; have := (hnew.bound b (shows_made hb)).1; omega
    · have := hi.bound b hb; have := (hnew.bound a (shows_made ha)).1; omega
    · exact nodup_inj hnew.ids (shows_made ha) (shows_made hb) hab
  · intro a ha
    rcases ha with ha | ha
    · exact hi.hist.sound a ha
    · exact hnew.sound a (shows_made ha)
  · intro x hx
    rcases hx with hx | hx
    · exact Or.inl (hi.hist.took x hx)
    · cases hx with
      | took hx _ _ => exact Or.inr (.sent hx)

/-- The entry an event prepares is fine. -/
theorem prepare_ok {cap : Nat} {s : State} {h : Obs → Prop} (hi : Inv h s) {e : Ev} (hf : Fair h e) :
    ∀ i ∈ s.prepare cap e, IncOk (More cap s h e) i := by
  have hmono : ∀ o, h o → More cap s h e o := fun o ho => Or.inl ho
  have hcreate : ∀ j, Inc.create j ∈ s.prepare cap e → IncOk (More cap s h e) (.create j) :=
    fun j hj => Or.inr (made_shows (mem_creates.mpr hj))
  intro i him
  cases e with
  | request v q =>
    have key : ∀ is : List Inc, s.prepare cap (.request v q) = is → (∀ i ∈ is, (∃ j, i = .create j) ∨ ∃ r, i = .drop r) →
        IncOk (More cap s h (.request v q)) i := by
      intro is his hall
      rcases hall i (by rw [← his]; exact him) with ⟨j, rfl⟩ | ⟨r, rfl⟩
      · exact hcreate j him
      · trivial
    refine key _ rfl ?_
    intro k hk
    have hplan : ∀ q, k ∈ ((plan s.jobs.jobs v s.counter q).map Inc.create).toList → (∃ j, k = .create j) ∨ ∃ r, k = .drop r := by
      intro q hk
      cases hp : plan s.jobs.jobs v s.counter q with
      | none => rw [hp] at hk; cases hk
      | some j => rw [hp] at hk; exact Or.inl ⟨j, by simpa using hk⟩
    cases q with
    | drop region =>
      simp only [State.prepare, request] at hk
      split at hk
      · cases hk
      · cases hd : dropFinal v s.counter region with
        | none => rw [hd] at hk; cases hk
        | some is =>
          rw [hd] at hk
          unfold dropFinal at hd
          split at hd
          · cases hd
          · split at hd
            · cases hd; cases hk
            · cases hd
              simp only [Option.getD_some, List.mem_cons, List.mem_map] at hk
              rcases hk with rfl | ⟨j, _, rfl⟩
              · exact Or.inr ⟨region, rfl⟩
              · exact Or.inl ⟨j, rfl⟩
    | create region stores => exact hplan (.create region stores) hk
    | split region child k b => exact hplan (.split region child k b) hk
    | splitInto region child => exact hplan (.splitInto region child) hk
    | merge a b => exact hplan (.merge a b) hk
    | addPeer a b => exact hplan (.addPeer a b) hk
    | removePeer a b => exact hplan (.removePeer a b) hk
    | movePeer a b c => exact hplan (.movePeer a b c) hk
    | transfer a b => exact hplan (.transfer a b) hk
  | pass v order reply =>
    have him' : i ∈ (processAll v cap s.jobs s.counter order []).1 ++
        sendAll (processAll v cap s.jobs s.counter order []).2
          (storesOf (processAll v cap s.jobs s.counter order []).2) reply := him
    rcases List.mem_append.mp him' with hp | hp
    · obtain ⟨j, hj, hjo, hw⟩ := processAll_inc hp
      obtain ⟨j0, h0⟩ := hi.tab.ok j hj
      cases hw with
      | delete hn =>
        refine Or.inl ⟨j0, Or.inl h0.made, by rw [h0.like.id], ?_⟩
        intro m hlt
        exact (h0.done m (by rw [hn, h0.like.length]; exact hlt)).mono hmono
      | @update t ht hpa hc =>
        refine ⟨j0, Or.inl h0.made, ⟨h0.like.id, h0.like.kind, h0.like.length, h0.like.task⟩, ?_, ?_, ?_⟩
        · exact (h0.mono hmono).succ
        · have := (List.getElem?_eq_some_iff.mp ht).1
          show j.next + 1 ≤ j.tasks.length
          omega
        · intro m hlt
          have hlt' : m < j.next + 1 := hlt
          by_cases hm : m = j.next
          · subst hm
            obtain ⟨t0, ht0, htl⟩ := h0.like.get ht
            refine ⟨t0, ht0, ⟨v, ?_, htl.holds hpa⟩, ?_⟩
            · rw [← h0.like.id]; exact Or.inr (.looked hj hjo)
            · intro o ho c hc'
              obtain ⟨c', hc'', _⟩ := htl.mem' (List.mem_flatMap.mpr ⟨o, ho, hc'⟩ : c ∈ t0.cmds)
              rw [hc] at hc''; cases hc''
          · exact (h0.done m (by omega)).mono hmono
      | @drop t n _ ht hp hd =>
        have : (∃ j, i = .create j) ∨ ∃ r, i = .drop r := by
          clear hp him him' ht
          generalize t.drops = l at hd
          induction l generalizing n with
          | nil => cases hd
          | cons r l ih =>
            unfold addDrops at hd
            cases hdf : dropFinal v n r with
            | none => rw [hdf] at hd; cases hd
            | some is =>
              simp only [hdf] at hd
              rcases List.mem_append.mp hd with hd | hd
              · unfold dropFinal at hdf
                split at hdf
                · cases hdf
                · split at hdf
                  · cases hdf; cases hd
                  · cases hdf
                    simp only [List.mem_cons, List.mem_map] at hd
                    rcases hd with rfl | ⟨j, _, rfl⟩
                    · exact Or.inr ⟨r, rfl⟩
                    · exact Or.inl ⟨j, rfl⟩
              · exact ih hd
        rcases this with ⟨j, rfl⟩ | ⟨r, rfl⟩
        · exact hcreate j him
        · trivial
    · obtain ⟨x, hx, a, ha, hr⟩ := sendAll_inc hp
      have hxs : x ∈ s.sends cap (.pass v order reply) := hx
      cases a with
      | code c =>
        simp only [Sent.result, List.mem_singleton] at hr
        subst hr
        split
        · rename_i hacc
          exact ⟨x, Or.inr (.took hxs ha ((accepted_iff _ _).mp hacc)), rfl, rfl⟩
        · exact ⟨x, Or.inr (.sent hxs), rfl, rfl⟩
      | notLeader st =>
        simp only [Sent.result] at hr
        split at hr
        · cases hr
        · simp only [List.mem_singleton] at hr
          subst hr
          refine ⟨x, Or.inr (.sent hxs), rfl, rfl, ?_⟩
          unfold answer at ha
          cases hrp : reply x.store (decide (x.cmd.type = .create)) with
          | none => rw [hrp] at ha; cases ha
          | some f => rw [hrp] at ha; exact hf _ _ f x.cmd st hrp ha
  | report job cmd =>
    simp only [State.prepare] at him
    split at him
    · simp only [List.mem_singleton] at him
      subst him
      obtain ⟨x, hx, hr⟩ := hf
      exact ⟨x, Or.inl hx, hr⟩
    · cases him
  | clean id =>
    obtain ⟨j, hj, rfl⟩ := List.mem_map.mp him
    have hj2 := (List.mem_filter.mp hj).2
    refine Or.inr ⟨id, Or.inr .cleaned, ?_⟩
    rcases Bool.or_eq_true_iff.mp hj2 with h0 | h0
    · exact Or.inl (of_decide_eq_true h0)
    · exact Or.inr (of_decide_eq_true h0).symm
  | commit k => cases him
  | lose k => cases him

theorem inv_step {cap : Nat} {s s' : State} {h : Obs → Prop} {e : Ev} (hi : Inv h s) (hf : Fair h e) (hs : s.step cap e = some s') :
    Inv (More cap s h e) s' := by
  have hmono : ∀ o, h o → More cap s h e o := fun o ho => Or.inl ho
  have hpend : ∀ l ∈ s.pending, ∀ i ∈ l, IncOk (More cap s h e) i := fun l hl i hil => (hi.pend l hl i hil).mono hmono
  have hbase : ∀ s'', some { s with counter := above s.counter (s.prepare cap e), pending := s.pending ++ [s.prepare cap e] } = some s'' →
      Inv (More cap s h e) s'' := by
    intro s'' hs''
    cases hs''
    refine ⟨hist_more hi e, ?_, hi.tab.mono hmono, ?_⟩
    · intro j hj
      rcases hj with hj | hj
      · have := hi.bound j hj
        have := above_le (s.prepare cap e) s.counter
        show j.id < above s.counter (s.prepare cap e)
        omega
      · exact above_lt _ _ (shows_made hj)
    · intro l hl
      rcases List.mem_append.mp hl with hl | hl
      · exact hpend l hl
      · have : l = s.prepare cap e := by simpa using hl
        rw [this]; exact prepare_ok hi hf
  cases e with
  | commit k =>
    simp only [State.step] at hs
    split at hs
    · cases hs
      refine ⟨hist_more hi _, ?_, hi.tab.mono hmono, hpend⟩
      intro j hj
      rcases hj with hj | hj
      · exact hi.bound j hj
      · cases hj
    · rename_i l hl
      cases ha : s.jobs.applyAll l with
      | none => rw [ha] at hs; cases hs
      | some jobs =>
        rw [ha] at hs
        cases hs
        refine ⟨hist_more hi _, ?_, ?_, ?_⟩
        · intro j hj
          rcases hj with hj | hj
          · exact hi.bound j hj
          · cases hj
        · exact (hi.tab.mono hmono).applyAll (hist_more hi _) (hpend l (List.mem_of_getElem? hl)) ha
        · intro l' hl'
          exact hpend l' (List.mem_of_mem_eraseIdx hl')
  | lose k =>
    simp only [State.step, Option.some.injEq] at hs
    subst hs
    refine ⟨hist_more hi _, ?_, hi.tab.mono hmono, ?_⟩
    · intro j hj
      rcases hj with hj | hj
      · exact hi.bound j hj
      · cases hj
    · intro l' hl'
      exact hpend l' (List.mem_of_mem_eraseIdx hl')
  | request v q => exact hbase _ hs
  | pass v order reply => exact hbase _ hs
  | report a b => exact hbase _ hs
  | clean id => exact hbase _ hs

theorem run_inv {cap : Nat} {s : State} {h : Obs → Prop} (hr : Run cap s h) : Inv h s := by
  induction hr with
  | start =>
    refine ⟨⟨?_, ?_, ?_, ?_⟩, ?_, ⟨?_, ?_, ?_⟩, ?_⟩
    · intro a b ha; cases ha
    · intro a ha; cases ha
    · intro x hx; cases hx
    · intro x hx; cases hx
    · intro j hj; cases hj
    · exact List.nodup_nil
    · intro j hj; cases hj
    · intro j hj; cases hj
    · intro e he; cases he
  | step _ hf hs ih => exact inv_step ih hf hs

end Verif.Job
