import Verif.Job.Inv

/-!
# Jobs of the coordinator: the jobs that are made (lemmas)
-/

namespace Verif.Job

/-! ## Ids -/

theorem number_length {α : Type} (l : List α) : ∀ n, (number n l).length = l.length := by
  induction l with
  | nil => intro n; rfl
  | cons a l ih => intro n; simp [number, ih]

theorem number_fst {α : Type} : ∀ (l : List α) (n : Nat), (number n l).map Prod.fst = List.range' n l.length
  | [], _ => rfl
  | a :: l, n => by simp [number, number_fst l (n + 1), List.range']

theorem number_snd {α : Type} : ∀ (l : List α) (n : Nat), (number n l).map Prod.snd = l
  | [], _ => rfl
  | a :: l, n => by simp [number, number_snd l (n + 1)]

theorem number_mem {α : Type} {l : List α} {n : Nat} {x : Nat × α} (h : x ∈ number n l) : n ≤ x.1 ∧ x.1 < n + l.length ∧ x.2 ∈ l := by
  have h1 : x.1 ∈ List.range' n l.length := by rw [← number_fst l n]; exact List.mem_map_of_mem h
  have h2 : x.2 ∈ l := by
    have := List.mem_map_of_mem (f := Prod.snd) h
    rw [number_snd] at this; exact this
  rw [List.mem_range'_1] at h1
  exact ⟨h1.1, h1.2, h2⟩

/-- The ids of commands are within bounds, and differ. -/
def IdsIn (l : List Task) (a b : Nat) : Prop :=
  a ≤ b ∧ ((l.flatMap Task.cmds).map Cmd.id).Nodup ∧ ∀ c ∈ l.flatMap Task.cmds, a ≤ c.id ∧ c.id < b

theorem IdsIn.nil (a : Nat) : IdsIn [] a a := ⟨Nat.le_refl _, by simp, by simp⟩

theorem IdsIn.append {l l' : List Task} {a b c : Nat} (h : IdsIn l a b) (h' : IdsIn l' b c) : IdsIn (l ++ l') a c := by
  refine ⟨Nat.le_trans h.1 h'.1, ?_, ?_⟩
  · rw [List.flatMap_append, List.map_append, List.nodup_append]
    refine ⟨h.2.1, h'.2.1, ?_⟩
    intro x hx y hy he
    obtain ⟨d, hd, rfl⟩ := List.mem_map.mp hx
    obtain ⟨d', hd', rfl⟩ := List.mem_map.mp hy
    have := h.2.2 d hd; have := h'.2.2 d' hd'; omega
  · intro d hd
    rw [List.flatMap_append, List.mem_append] at hd
    have := h.1; have := h'.1
    rcases hd with hd | hd
    · have := h.2.2 d hd; omega
    · have := h'.2.2 d hd; omega

theorem IdsIn.cons {t : Task} {l : List Task} {a b c : Nat} (h : IdsIn [t] a b) (h' : IdsIn l b c) : IdsIn (t :: l) a c :=
  IdsIn.append h h'

theorem IdsIn.weaken {l : List Task} {a b a' b' : Nat} (h : IdsIn l a b) (h1 : a' ≤ a) (h2 : b ≤ b') : IdsIn l a' b' :=
  ⟨by have := h.1; omega, h.2.1, fun c hc => by have := h.2.2 c hc; omega⟩

theorem IdsIn.none {t : Task} (h : t.cmds = []) (a : Nat) : IdsIn [t] a a := by
  refine ⟨Nat.le_refl _, ?_, ?_⟩
  · simp [h]
  · intro c hc; simp [h] at hc

theorem await_cmds (cs : List (Nat × Check)) : (await cs).cmds = [] := by
  simp only [Task.cmds, await, List.flatMap_eq_nil_iff]
  intro o ho
  obtain ⟨c, _, rfl⟩ := List.mem_map.mp ho
  rfl

theorem IdsIn.one (store : Nat) (ch : Check) (c : Cmd) : IdsIn [Job.one store ch c] c.id (c.id + 1) := by
  refine ⟨by omega, ?_, ?_⟩
  · simp [Job.one, Task.cmds]
  · intro d hd
    have : d = c := by simpa [Job.one, Task.cmds] using hd
    rw [this]; omega

theorem each_cmds (cs : List (Nat × Check × Cmd)) : (each cs).cmds = cs.map (fun c => c.2.2) := by
  simp only [Task.cmds, each]
  induction cs with
  | nil => rfl
  | cons c cs ih => simp [ih]

theorem IdsIn.each {n : Nat} {l : List Nat} {f : Nat × Nat → Check} {g : Nat × Nat → Cmd} (hg : ∀ x, (g x).id = x.1) :
    IdsIn [Job.each ((number n l).map (fun x => (x.2, f x, g x)))] n (n + l.length) := by
  refine ⟨by omega, ?_, ?_⟩
  · simp only [List.flatMap_cons, List.flatMap_nil, List.append_nil, each_cmds, List.map_map]
    have : (number n l).map (Cmd.id ∘ (fun c => c.2.2) ∘ fun x => (x.2, f x, g x)) = (number n l).map Prod.fst := by
      apply List.map_congr_left; intro x _; exact hg x
    rw [this, number_fst]
    exact List.nodup_range'
  · intro c hc
    simp only [List.flatMap_cons, List.flatMap_nil, List.append_nil, each_cmds, List.map_map, List.mem_map] at hc
    obtain ⟨x, hx, rfl⟩ := hc
    have := number_mem hx
    show n ≤ (g x).id ∧ (g x).id < n + l.length
    rw [hg]; omega

/-! ## Sound tasks -/

/-- A task as it is made. -/
structure TaskSound (t : Task) : Prop where
  alone : ∀ c ∈ t.cmds, c.type.leader = true → t.cmds.length = 1
  single : ∀ o ∈ t.ops, o.cmds.length ≤ 1
  fresh : ∀ o ∈ t.ops, o.success = false

theorem TaskSound.await (cs : List (Nat × Check)) : TaskSound (Job.await cs) := by
  refine ⟨?_, ?_, ?_⟩
  · intro c hc; rw [await_cmds] at hc; cases hc
  · intro o ho
    obtain ⟨c, _, rfl⟩ := List.mem_map.mp ho
    simp
  · intro o ho
    obtain ⟨c, _, rfl⟩ := List.mem_map.mp ho
    rfl

theorem TaskSound.one (store : Nat) (ch : Check) (c : Cmd) : TaskSound (Job.one store ch c) := by
  refine ⟨fun _ _ _ => rfl, ?_, ?_⟩ <;>
  · intro o ho
    have : o = ⟨store, ch, [c], false, 0⟩ := by simpa [Job.one] using ho
    simp [this]

theorem TaskSound.each (cs : List (Nat × Check × Cmd)) (h : ∀ c ∈ cs, c.2.2.type.leader = false) : TaskSound (Job.each cs) := by
  refine ⟨?_, ?_, ?_⟩
  · intro c hc hl
    rw [each_cmds] at hc
    obtain ⟨x, hx, rfl⟩ := List.mem_map.mp hc
    rw [h x hx] at hl; cases hl
  · intro o ho
    obtain ⟨c, _, rfl⟩ := List.mem_map.mp ho
    simp
  · intro o ho
    obtain ⟨c, _, rfl⟩ := List.mem_map.mp ho
    rfl

theorem TaskSound.each' {n : Nat} {l : List Nat} {f : Nat × Nat → Check} {g : Nat × Nat → Cmd}
    (hg : ∀ x, (g x).type.leader = false) : TaskSound (Job.each ((number n l).map (fun x => (x.2, f x, g x)))) := by
  apply TaskSound.each
  intro c hc
  obtain ⟨x, _, rfl⟩ := List.mem_map.mp hc
  exact hg x

theorem Sound.of {j : Job} {a b : Nat} (hi : IdsIn j.tasks a b) (hn : j.next = 0) (ht : ∀ t ∈ j.tasks, TaskSound t) : Sound j :=
  ⟨hi.2.1, fun t h => (ht t h).alone, fun t h => (ht t h).single, fun t h => (ht t h).fresh, hn⟩

theorem ids_splitVector (n region : Nat) (r : Rec) : IdsIn (splitVector n region r) n (n + 2 * r.peers.length) := by
  unfold splitVector
  split
  · have hh : IdsIn [holdTask (n + r.peers.length) r.peers region, indexTask r.peers region r.version]
        (n + r.peers.length) (n + r.peers.length + r.peers.length) :=
      IdsIn.cons (IdsIn.each (fun _ => rfl)) (IdsIn.none (await_cmds _) _)
    have hs : IdsIn (if r.snapshotLog < r.applyLog then
        [snapshotTask n r.peers region, await [(r.leader, .region { regionCheck region with snapshotLog := r.applyLog })]]
        else []) n (n + r.peers.length) := by
      split
      · exact IdsIn.cons (IdsIn.each (fun _ => rfl)) (IdsIn.none (await_cmds _) _)
      · exact (IdsIn.nil n).weaken (Nat.le_refl _) (by omega)
    exact (IdsIn.append hs hh).weaken (Nat.le_refl _) (by omega)
  · exact (IdsIn.nil n).weaken (Nat.le_refl _) (by omega)

theorem sound_splitVector (n region : Nat) (r : Rec) : ∀ t ∈ splitVector n region r, TaskSound t := by
  intro t ht
  unfold splitVector at ht
  split at ht
  · rcases List.mem_append.mp ht with ht | ht
    · split at ht
      · simp only [List.mem_cons, List.not_mem_nil, or_false] at ht
        rcases ht with rfl | rfl
        · exact TaskSound.each' (fun _ => rfl)
        · exact TaskSound.await _
      · cases ht
    · simp only [List.mem_cons, List.not_mem_nil, or_false] at ht
      rcases ht with rfl | rfl
      · exact TaskSound.each' (fun _ => rfl)
      · exact TaskSound.await _
  · cases ht

/-- What a request makes: the id of the job. -/
theorem plan_id {jobs : List Job} {v : View} {n : Nat} {q : Req} {j : Job} (h : plan jobs v n q = some j) : j.id = n := by
  cases q with
  | create region stores => simp only [plan, Option.some.injEq] at h; rw [← h]
  | drop region => cases h
  | split region child key byStore =>
    simp only [plan] at h
    split at h
    · cases h
    · split at h
      · cases h
      · split at h
        · cases h
        · cases h; rfl
  | splitInto region child =>
    simp only [plan] at h
    split at h
    · cases h
    · split at h
      · split at h
        · cases h
        · cases h; rfl
      · cases h
  | merge source target =>
    simp only [plan] at h
    split at h
    · cases h
    · split at h
      · split at h
        · cases h
        · split at h
          · cases h
          · cases h; rfl
      · cases h
  | addPeer region store =>
    simp only [plan] at h
    split at h
    · cases h
    · split at h
      · cases h
      · split at h
        · cases h
        · cases h; rfl
  | removePeer region store =>
    simp only [plan] at h
    split at h
    · cases h
    · split at h
      · cases h
      · split at h
        · cases h
        · cases h; rfl
  | movePeer region new old =>
    simp only [plan] at h
    split at h
    · cases h
    · split at h
      · cases h
      · split at h
        · cases h
        · cases h; rfl
  | transfer region store =>
    simp only [plan] at h
    split at h
    · cases h
    · split at h
      · cases h
      · cases h; rfl

theorem plan_sound {jobs : List Job} {v : View} {n : Nat} {q : Req} {j : Job} (h : plan jobs v n q = some j) : Sound j := by
  cases q with
  | create region stores =>
    simp only [plan, Option.some.injEq] at h; subst h
    refine Sound.of (a := n) (b := n + stores.length) (IdsIn.each (fun _ => rfl)) rfl ?_
    intro t ht
    simp only [List.mem_cons, List.not_mem_nil, or_false] at ht
    subst ht; exact TaskSound.each' (fun _ => rfl)
  | drop region => cases h
  | split region child key byStore =>
    simp only [plan] at h
    split at h
    · cases h
    · split at h
      · cases h
      · rename_i r _
        split at h
        · cases h
        · cases h
          refine Sound.of (a := n) (b := n + 2 * r.peers.length + r.peers.length + 1) ?_ rfl ?_
          · refine IdsIn.append (ids_splitVector n region r) ?_
            have hc : ∀ stores : List Nat, stores.length ≤ r.peers.length →
                IdsIn [each ((number (n + 2 * r.peers.length) stores).map
                  (fun x => (x.2, Check.none, (⟨x.1, .create, child, .none, [], false⟩ : Cmd))))]
                  (n + 2 * r.peers.length) (n + 2 * r.peers.length + r.peers.length) := by
              intro stores hl
              exact (IdsIn.each (f := fun _ => Check.none) (g := fun x => (⟨x.1, .create, child, .none, [], false⟩ : Cmd))
                (fun _ => rfl)).weaken (Nat.le_refl _) (by omega)
            refine IdsIn.cons (hc _ ?_) ?_
            · split <;> simp
            · refine IdsIn.cons (IdsIn.none (await_cmds _) _) (IdsIn.cons (IdsIn.none (await_cmds _) _)
                (IdsIn.cons (IdsIn.one _ _ _) (IdsIn.none (await_cmds _) _)))
          · intro t ht
            rcases List.mem_append.mp ht with ht | ht
            · exact sound_splitVector n region r t ht
            · simp only [List.mem_cons, List.not_mem_nil, or_false] at ht
              rcases ht with rfl | rfl | rfl | rfl | rfl
              · exact TaskSound.each' (fun _ => rfl)
              · exact TaskSound.await _
              · exact TaskSound.await _
              · exact TaskSound.one _ _ _
              · exact TaskSound.await _
  | splitInto region child =>
    simp only [plan] at h
    split at h
    · cases h
    · split at h
      · split at h
        · cases h
        · cases h
          refine Sound.of (a := 0) (b := 1) (IdsIn.one _ _ _) rfl ?_
          intro t ht
          simp only [List.mem_cons, List.not_mem_nil, or_false] at ht
          subst ht; exact TaskSound.one _ _ _
      · cases h
  | merge source target =>
    simp only [plan] at h
    split at h
    · cases h
    · split at h
      · rename_i r q _ _
        split at h
        · cases h
        · split at h
          · cases h
          · cases h
            refine Sound.of (a := n) (b := n + r.peers.length + 1) ?_ rfl ?_
            · refine IdsIn.append (b := n + r.peers.length) ?_ ?_
              · split
                · exact IdsIn.cons (IdsIn.each (fun _ => rfl)) (IdsIn.none (await_cmds _) _)
                · exact (IdsIn.nil n).weaken (Nat.le_refl _) (by omega)
              · exact IdsIn.cons (IdsIn.one _ _ _) (IdsIn.cons (IdsIn.none (await_cmds _) _)
                  (IdsIn.cons (IdsIn.none rfl _) (IdsIn.none (await_cmds _) _)))
            · intro t ht
              rcases List.mem_append.mp ht with ht | ht
              · split at ht
                · simp only [List.mem_cons, List.not_mem_nil, or_false] at ht
                  rcases ht with rfl | rfl
                  · exact TaskSound.each' (fun _ => rfl)
                  · exact TaskSound.await _
                · cases ht
              · simp only [List.mem_cons, List.not_mem_nil, or_false] at ht
                rcases ht with rfl | rfl | rfl | rfl
                · exact TaskSound.one _ _ _
                · exact TaskSound.await _
                · refine ⟨fun c hc => ?_, ?_, ?_⟩
                  · simp [Task.cmds] at hc
                  · intro o ho; simp at ho; subst ho; simp
                  · intro o ho; simp at ho; subst ho; rfl
                · exact TaskSound.await _
      · cases h
  | addPeer region store =>
    simp only [plan] at h
    split at h
    · cases h
    · split at h
      · cases h
      · split at h
        · cases h
        · cases h
          refine Sound.of (a := n) (b := n + 2)
            (IdsIn.cons (IdsIn.one _ _ _) (IdsIn.cons (IdsIn.none (await_cmds _) _)
              (IdsIn.cons (IdsIn.one _ _ _) (IdsIn.none (await_cmds _) _)))) rfl ?_
          intro t ht
          simp only [List.mem_cons, List.not_mem_nil, or_false] at ht
          rcases ht with rfl | rfl | rfl | rfl
          · exact TaskSound.one _ _ _
          · exact TaskSound.await _
          · exact TaskSound.one _ _ _
          · exact TaskSound.await _
  | removePeer region store =>
    simp only [plan] at h
    split at h
    · cases h
    · split at h
      · cases h
      · split at h
        · cases h
        · cases h
          refine Sound.of (a := n) (b := n + 2)
            (IdsIn.cons (IdsIn.one _ _ _) (IdsIn.cons (IdsIn.one _ _ _) (IdsIn.none (await_cmds _) _))) rfl ?_
          intro t ht
          simp only [List.mem_cons, List.not_mem_nil, or_false] at ht
          rcases ht with rfl | rfl | rfl
          · exact TaskSound.one _ _ _
          · exact TaskSound.one _ _ _
          · exact TaskSound.await _
  | movePeer region new old =>
    simp only [plan] at h
    split at h
    · cases h
    · split at h
      · cases h
      · split at h
        · cases h
        · cases h
          refine Sound.of (a := n) (b := n + 4)
            (IdsIn.cons (IdsIn.one _ _ _) (IdsIn.cons (IdsIn.none (await_cmds _) _)
              (IdsIn.cons (IdsIn.one _ _ _) (IdsIn.cons (IdsIn.none (await_cmds _) _)
              (IdsIn.cons (IdsIn.one _ _ _) (IdsIn.cons (IdsIn.one _ _ _) (IdsIn.none (await_cmds _) _))))))) rfl ?_
          intro t ht
          simp only [List.mem_cons, List.not_mem_nil, or_false] at ht
          rcases ht with rfl | rfl | rfl | rfl | rfl | rfl | rfl
          · exact TaskSound.one _ _ _
          · exact TaskSound.await _
          · exact TaskSound.one _ _ _
          · exact TaskSound.await _
          · exact TaskSound.one _ _ _
          · exact TaskSound.one _ _ _
          · exact TaskSound.await _
  | transfer region store =>
    simp only [plan] at h
    split at h
    · cases h
    · split at h
      · cases h
      · cases h
        refine Sound.of (a := n) (b := n + 1) (IdsIn.one _ _ _) rfl ?_
        intro t ht
        simp only [List.mem_cons, List.not_mem_nil, or_false] at ht
        subst ht; exact TaskSound.one _ _ _

/-! ## The jobs entries make -/

theorem creates_append : ∀ a b : List Inc, creates (a ++ b) = creates a ++ creates b
  | [], _ => rfl
  | .create j :: a, b => by simp [creates, creates_append a b]
  | .update j :: a, b => by simp [creates, creates_append a b]
  | .delete j :: a, b => by simp [creates, creates_append a b]
  | .status _ _ _ :: a, b => by simp [creates, creates_append a b]
  | .move _ _ _ :: a, b => by simp [creates, creates_append a b]
  | .drop _ :: a, b => by simp [creates, creates_append a b]

theorem mem_creates {j : Job} : ∀ {e : List Inc}, j ∈ creates e ↔ Inc.create j ∈ e
  | [] => by simp [creates]
  | .create k :: e => by simp [creates, mem_creates (e := e)]
  | .update k :: e => by simp [creates, mem_creates (e := e)]
  | .delete k :: e => by simp [creates, mem_creates (e := e)]
  | .status _ _ _ :: e => by simp [creates, mem_creates (e := e)]
  | .move _ _ _ :: e => by simp [creates, mem_creates (e := e)]
  | .drop _ :: e => by simp [creates, mem_creates (e := e)]

theorem creates_map : ∀ l : List Job, creates (l.map Inc.create) = l
  | [] => rfl
  | j :: l => by simp [creates, creates_map l]

theorem creates_nil {e : List Inc} (h : ∀ i ∈ e, ∀ j, i ≠ .create j) : creates e = [] := by
  apply List.eq_nil_iff_forall_not_mem.mpr
  intro j hj
  exact h _ (mem_creates.mp hj) j rfl

/-- The jobs made are new ones, with ids from `n` to below `m`. -/
structure New (l : List Job) (n m : Nat) : Prop where
  le : n ≤ m
  ids : (l.map Job.id).Nodup
  bound : ∀ j ∈ l, n ≤ j.id ∧ j.id < m
  sound : ∀ j ∈ l, Sound j

theorem New.nil (n : Nat) : New [] n n := ⟨Nat.le_refl _, by simp, by simp, by simp⟩

theorem New.weaken {l : List Job} {a b b' : Nat} (h : New l a b) (h2 : b ≤ b') : New l a b' :=
  ⟨by have := h.le; omega, h.ids, fun c hc => by have := h.bound c hc; omega, h.sound⟩

theorem New.append {l l' : List Job} {a b c : Nat} (h : New l a b) (h' : New l' b c) : New (l ++ l') a c := by
  refine ⟨Nat.le_trans h.le h'.le, ?_, ?_, ?_⟩
  · rw [List.map_append, List.nodup_append]
    refine ⟨h.ids, h'.ids, ?_⟩
    intro x hx y hy he
    obtain ⟨d, hd, rfl⟩ := List.mem_map.mp hx
    obtain ⟨d', hd', rfl⟩ := List.mem_map.mp hy
    have := h.bound d hd; have := h'.bound d' hd'; omega
  · intro d hd
    have := h.le; have := h'.le
    rcases List.mem_append.mp hd with hd | hd
    · have := h.bound d hd; omega
    · have := h'.bound d hd; omega
  · intro d hd
    rcases List.mem_append.mp hd with hd | hd
    · exact h.sound d hd
    · exact h'.sound d hd

theorem new_dropJobs (n region : Nat) (l : List Nat) : New (dropJobs n region l) n (n + l.length) := by
  refine ⟨by omega, ?_, ?_, ?_⟩
  · unfold dropJobs
    rw [List.map_map]
    have : (number n l).map (Job.id ∘ fun x => (⟨x.1, .drop region x.2, [deleteTask x.1 x.2 region .none], 0⟩ : Job)) =
        (number n l).map Prod.fst := by
      apply List.map_congr_left; intro x _; rfl
    rw [this, number_fst]; exact List.nodup_range'
  · intro j hj
    obtain ⟨x, hx, rfl⟩ := List.mem_map.mp hj
    have := number_mem hx
    exact ⟨this.1, this.2.1⟩
  · intro j hj
    obtain ⟨x, hx, rfl⟩ := List.mem_map.mp hj
    refine Sound.of (IdsIn.one _ _ _) rfl ?_
    intro t ht
    simp only [List.mem_cons, List.not_mem_nil, or_false] at ht
    subst ht; exact TaskSound.one _ _ _

theorem dropJobs_length (n region : Nat) (l : List Nat) : (dropJobs n region l).length = l.length := by
  unfold dropJobs; rw [List.length_map, number_length]

theorem new_dropFinal {v : View} {n region : Nat} {is : List Inc} (h : dropFinal v n region = some is) :
    New (creates is) n (n + is.length) := by
  unfold dropFinal at h
  split at h
  · cases h
  · rename_i r hr
    split at h
    · cases h; exact New.nil n
    · cases h
      have : creates (.drop region :: (dropJobs n region r.peers).map Inc.create) = dropJobs n region r.peers := by
        simp [creates, creates_map]
      rw [this]
      refine (new_dropJobs n region r.peers).weaken ?_
      simp [dropJobs_length]

theorem new_addDrops (v : View) : ∀ (l : List Nat) (n : Nat), New (creates (addDrops v n l).2) n (n + (addDrops v n l).2.length)
  | [], n => New.nil n
  | r :: l, n => by
    unfold addDrops
    cases h : dropFinal v n r with
    | none => exact New.nil n
    | some is =>
      simp only [creates_append, List.length_append]
      have := (new_dropFinal h).append (new_addDrops v l (n + is.length))
      rwa [Nat.add_assoc] at this

theorem new_request (jobs : List Job) (v : View) (n : Nat) (q : Req) : ∃ m, New (creates (request jobs v n q)) n m := by
  have key : ∀ q, ∃ m, New (creates ((plan jobs v n q).map Inc.create).toList) n m := by
    intro q
    cases h : plan jobs v n q with
    | none => exact ⟨n, New.nil n⟩
    | some j =>
      refine ⟨n + 1, by omega, by simp [creates], ?_, ?_⟩
      · intro k hk
        have : k = j := by simpa [creates] using hk
        rw [this, plan_id h]; omega
      · intro k hk
        have : k = j := by simpa [creates] using hk
        rw [this]; exact plan_sound h
  cases q with
  | drop region =>
    simp only [request]
    split
    · exact ⟨n, New.nil n⟩
    · cases h : dropFinal v n region with
      | none => exact ⟨n, New.nil n⟩
      | some is => exact ⟨_, new_dropFinal h⟩
  | create region stores => exact key (.create region stores)
  | split region child k b => exact key _
  | splitInto region child => exact key _
  | merge a b => exact key _
  | addPeer a b => exact key _
  | removePeer a b => exact key _
  | movePeer a b c => exact key _
  | transfer a b => exact key _

theorem above_le : ∀ (e : List Inc) (n : Nat), n ≤ above n e
  | [], n => Nat.le_refl n
  | .create j :: e, n => Nat.le_trans (Nat.le_max_left _ _) (above_le e _)
  | .update j :: e, n => above_le e n
  | .delete j :: e, n => above_le e n
  | .status _ _ _ :: e, n => above_le e n
  | .move _ _ _ :: e, n => above_le e n
  | .drop _ :: e, n => above_le e n

theorem above_lt {j : Job} : ∀ (e : List Inc) (n : Nat), j ∈ creates e → j.id < above n e
  | [], n, h => nomatch h
  | .create k :: e, n, h => by
    simp only [creates, List.mem_cons] at h
    unfold above
    rcases h with rfl | h
    · have := above_le e (max n (j.id + 1)); omega
    · exact above_lt e _ h
  | .update k :: e, n, h => above_lt e n h
  | .delete k :: e, n, h => above_lt e n h
  | .status _ _ _ :: e, n, h => above_lt e n h
  | .move _ _ _ :: e, n, h => above_lt e n h
  | .drop _ :: e, n, h => above_lt e n h

end Verif.Job
