import Verif.Job.PropsGuard

/-!
# C87: a region is in one change at a time

Splits, merges and changes of peers of a region exclude each other.
-/

namespace Verif.Job

/-! ## Specification -/

/-- The regions a request is about. -/
def Kind.regions : Kind → List Nat
  | .create r _ => [r]
  | .drop r _ => [r]
  | .split r child _ _ _ => [r, child]
  | .splitInto r child => [r, child]
  | .merge source target _ _ _ => [source, target]
  | .addPeer r _ _ => [r]
  | .removePeer r _ _ => [r]
  | .movePeer r _ _ _ => [r]
  | .transfer r _ => [r]

/-- The jobs that change a region: splits, merges, and changes of its peers. -/
def Kind.changes : Kind → Prop
  | .create .. | .drop .. | .transfer .. => False
  | _ => True

/-- A command names a region. -/
def Cmd.Names (c : Cmd) (r : Nat) : Prop := c.region = r ∨ c.other = some r

/-- No job has a command that names the region. -/
def Free (jobs : List Job) (r : Nat) : Prop := ∀ j ∈ jobs, ∀ t ∈ j.tasks, ∀ c ∈ t.cmds, ¬ c.Names r

/-- A region that may be changed: normal, healthy, with recent heartbeats and a known leader. -/
def Fit (r : Rec) : Prop := r.state = .normal ∧ r.healthy = true ∧ r.online = true ∧ r.leader ≠ 0

/-- The requests that are granted, and the job that is made (for a drop: those for the peers). -/
inductive Grants (jobs : List Job) (v : View) : Req → Kind → Prop
  | create {r stores} : Grants jobs v (.create r stores) (.create r stores)
  | drop {r q st} : Free jobs r → v.regions r = some q → q.state ≠ .deleted → q.state ≠ .delete → q.state ≠ .deleting → st ∈ q.peers →
      Grants jobs v (.drop r) (.drop r st)
  | split {r child key byStore q} : Free jobs r → Free jobs 0 → v.regions r = some q → Fit q → q.range.start < key → key < q.range.stop →
      v.regions child = none → Grants jobs v (.split r child key byStore) (.split r child byStore q.peers (if q.vector then some q.version else none))
  | splitInto {r child q p} : Free jobs r → Free jobs child → v.regions r = some q → v.regions child = some p → Fit q → p.state = .standby →
      q.peers.Perm p.peers → r ≠ child → Grants jobs v (.splitInto r child) (.splitInto r child)
  | merge {a b q p g} : Free jobs a → Free jobs b → v.regions a = some q → v.regions b = some p → Fit q → Fit p → q.peers.Perm p.peers →
      a ≠ b → q.vector = p.vector →
      ((p.range.start = q.range.stop ∧ g = ⟨q.range.start, p.range.stop⟩) ∨
       (p.range.start ≠ q.range.stop ∧ q.range.start = p.range.stop ∧ g = ⟨p.range.start, q.range.stop⟩)) →
      Grants jobs v (.merge a b) (.merge a b g q.peers (if q.vector then some q.version else none))
  | addPeer {r st q} : Free jobs r → v.regions r = some q → Fit q → st ∉ q.peers → Grants jobs v (.addPeer r st) (.addPeer r st q.peers)
  | removePeer {r st q} : Free jobs r → v.regions r = some q → Fit q → st ∈ q.peers →
      (q.leader = st → 3 ≤ (q.peers.filter (fun p => p ≠ st)).length) →
      Grants jobs v (.removePeer r st) (.removePeer r st (q.peers.filter (fun p => p ≠ st)))
  | movePeer {r new old q} : Free jobs r → v.regions r = some q → Fit q → new ∉ q.peers → old ∈ q.peers →
      (q.leader = old → 2 ≤ (q.peers.filter (fun p => p ≠ old)).length) →
      Grants jobs v (.movePeer r new old) (.movePeer r new old (new :: q.peers.filter (fun p => p ≠ old)))
  | transfer {r st q} : v.regions r = some q → q.state = .normal → q.online = true → q.leader ≠ 0 → q.leader ≠ st → st ∈ q.peers →
      Grants jobs v (.transfer r st) (.transfer r st)

/-- The jobs that entries not yet applied make or put back. -/
def Inc.jobs : Inc → List Job
  | .create j => [j]
  | .update j => [j]
  | _ => []

/-- Nothing gets in the way of a test for conflicts: when a change is asked for, the jobs that
entries not yet applied make or put back are in the table; and the id of the new region of a split
is new. -/
def Calm (s : State) (h : Obs → Prop) : Ev → Prop
  | .request _ (.create _ _) | .request _ (.drop _) | .request _ (.transfer _ _) => True
  | .request _ q =>
    (∀ e ∈ s.pending, ∀ i ∈ e, ∀ j ∈ i.jobs, ∃ k ∈ s.jobs.jobs, k.id = j.id) ∧
    ∀ r child key b, q = .split r child key b → ∀ j, h (.made j) → child ∉ j.kind.regions
  | _ => True

/-- Runs in which requests come like that. -/
inductive CalmRun (cap : Nat) : State → (Obs → Prop) → Prop
  | start : CalmRun cap .empty (fun _ => False)
  | step {s s' h e} : CalmRun cap s h → Fair h e → Calm s h e → s.step cap e = some s' →
      CalmRun cap s' (fun o => h o ∨ Shows cap s e o)

/-! ## Lemmas -/

theorem CalmRun.run {cap : Nat} {s : State} {h : Obs → Prop} (hc : CalmRun cap s h) : Run cap s h := by
  induction hc with
  | start => exact .start
  | step _ hf _ hs ih => exact ih.step hf hs

theorem conflict_iff {jobs : List Job} {a b : Nat} : conflict jobs a b = false ↔ Free jobs a ∧ Free jobs b := by
  constructor
  · intro h
    have key : ∀ j ∈ jobs, ∀ t ∈ j.tasks, ∀ c ∈ t.cmds, ∀ r, c.Names r → r = a ∨ r = b → False := by
      intro j hj t ht c hc r hn hr
      obtain ⟨o, ho, hco⟩ := List.mem_flatMap.mp hc
      have : conflict jobs a b = true := List.any_eq_true.mpr ⟨j, hj, List.any_eq_true.mpr ⟨t, ht, List.any_eq_true.mpr ⟨o, ho,
        List.any_eq_true.mpr ⟨c, hco, by
          simp only [Bool.or_eq_true, decide_eq_true_eq]
          rcases hr with rfl | rfl
          · exact hn.elim (fun h => Or.inl (Or.inl (Or.inl h))) (fun h => Or.inl (Or.inr h))
          · exact hn.elim (fun h => Or.inl (Or.inl (Or.inr h))) Or.inr⟩⟩⟩⟩
      rw [h] at this; cases this
    exact ⟨fun j hj t ht c hc hn => key j hj t ht c hc a hn (Or.inl rfl), fun j hj t ht c hc hn => key j hj t ht c hc b hn (Or.inr rfl)⟩
  · rintro ⟨h1, h2⟩
    unfold conflict
    rw [List.any_eq_false]
    intro j hj hn
    obtain ⟨t, ht, hn⟩ := List.any_eq_true.mp hn
    obtain ⟨o, ho, hn⟩ := List.any_eq_true.mp hn
    obtain ⟨c, hc, hn⟩ := List.any_eq_true.mp hn
    have hcm : c ∈ t.cmds := List.mem_flatMap.mpr ⟨o, ho, hc⟩
    simp only [Bool.or_eq_true, decide_eq_true_eq] at hn
    rcases hn with ((hn | hn) | hn) | hn
    · exact h1 j hj t ht c hcm (Or.inl hn)
    · exact h2 j hj t ht c hcm (Or.inl hn)
    · exact h1 j hj t ht c hcm (Or.inr hn)
    · exact h2 j hj t ht c hcm (Or.inr hn)

instance (r : Rec) : Decidable (Fit r) := inferInstanceAs (Decidable (_ ∧ _ ∧ _ ∧ _))

theorem fit_iff {r : Rec} : r.fit = true ↔ Fit r := by
  simp only [Rec.fit, Fit, Bool.and_eq_true, decide_eq_true_eq, and_assoc]

theorem fit_false {r : Rec} : r.fit = false ↔ ¬ Fit r := by
  rw [← fit_iff]; simp

/-- The commands of a job name its regions only. -/
theorem shape_names {j : Job} (hs : Shape j) {t : Task} (ht : t ∈ j.tasks) {c : Cmd} (hc : c ∈ t.cmds) {r : Nat} (hr : c.Names r) :
    r ∈ j.kind.regions := by
  have key : ∀ {d : Cmd}, c = d → d.region ∈ j.kind.regions → (∀ x, d.other = some x → x ∈ j.kind.regions) → r ∈ j.kind.regions := by
    intro d he h1 h2
    rw [he] at hr
    rcases hr with hr | hr
    · rw [← hr]; exact h1
    · exact h2 r hr
  have hone : ∀ {a : Nat} {ch : Check} {d : Cmd}, c ∈ (one a ch d).cmds → d.region ∈ j.kind.regions →
      (∀ x, d.other = some x → x ∈ j.kind.regions) → r ∈ j.kind.regions := fun h => key (one_cmds h)
  have heach : ∀ {l : List (Nat × Nat)} {f : Nat × Nat → Nat × Check × Cmd}, c ∈ (each (l.map f)).cmds →
      (∀ a, (f a).2.2.region ∈ j.kind.regions ∧ (f a).2.2.other = none) → r ∈ j.kind.regions := by
    intro l f hc hf
    obtain ⟨o, ho, hco⟩ := List.mem_flatMap.mp hc
    simp only [each, List.map_map, List.mem_map] at ho
    obtain ⟨a, _, rfl⟩ := ho
    have : c = (f a).2.2 := by simpa using hco
    exact key this (hf a).1 (by intro x hx; rw [(hf a).2] at hx; cases hx)
  cases hs with
  | create n region stores =>
    simp only [List.mem_cons, List.not_mem_nil, or_false] at ht
    subst ht
    exact heach hc (fun a => ⟨by simp [Kind.regions], rfl⟩)
  | drop n region store =>
    simp only [List.mem_cons, List.not_mem_nil, or_false] at ht
    subst ht
    exact hone hc (by simp [Kind.regions]) (fun x hx => nomatch hx)
  | split n m k region child leader byStore q =>
    rcases List.mem_append.mp ht with ht | ht
    · unfold splitVector at ht
      split at ht
      · rcases List.mem_append.mp ht with ht | ht
        · split at ht
          · simp only [List.mem_cons, List.not_mem_nil, or_false] at ht
            rcases ht with rfl | rfl
            · exact heach hc (fun a => ⟨by simp [Kind.regions], rfl⟩)
            · exact (await_none hc).elim
          · cases ht
        · simp only [List.mem_cons, List.not_mem_nil, or_false] at ht
          rcases ht with rfl | rfl
          · exact heach hc (fun a => ⟨by simp [Kind.regions], rfl⟩)
          · exact (await_none hc).elim
      · cases ht
    · simp only [List.mem_cons, List.not_mem_nil, or_false] at ht
      rcases ht with rfl | rfl | rfl | rfl | rfl
      · exact heach hc (fun a => ⟨by simp [Kind.regions], rfl⟩)
      · exact (await_none hc).elim
      · exact (await_none hc).elim
      · exact hone hc (by simp [Kind.regions]) (fun x hx => by cases hx; simp [Kind.regions])
      · exact (await_none hc).elim
  | splitInto n region child leader =>
    simp only [List.mem_cons, List.not_mem_nil, or_false] at ht
    subst ht
    exact hone hc (by simp [Kind.regions]) (fun x hx => by cases hx; simp [Kind.regions])
  | merge n k source target leader g q =>
    rcases List.mem_append.mp ht with ht | ht
    · split at ht
      · simp only [List.mem_cons, List.not_mem_nil, or_false] at ht
        rcases ht with rfl | rfl
        · exact heach hc (fun a => ⟨by simp [Kind.regions], rfl⟩)
        · exact (await_none hc).elim
      · cases ht
    · simp only [List.mem_cons, List.not_mem_nil, or_false] at ht
      rcases ht with rfl | rfl | rfl | rfl
      · exact hone hc (by simp [Kind.regions]) (fun x hx => by cases hx; simp [Kind.regions])
      · exact (await_none hc).elim
      · simp [Task.cmds] at hc
      · exact (await_none hc).elim
  | addPeer n region store leader old =>
    simp only [List.mem_cons, List.not_mem_nil, or_false] at ht
    rcases ht with rfl | rfl | rfl | rfl
    · exact hone hc (by simp [Kind.regions]) (fun x hx => nomatch hx)
    · exact (await_none hc).elim
    · exact hone hc (by simp [Kind.regions]) (fun x hx => nomatch hx)
    · exact (await_none hc).elim
  | removePeer n region store leader kept =>
    simp only [List.mem_cons, List.not_mem_nil, or_false] at ht
    rcases ht with rfl | rfl | rfl
    · exact hone hc (by simp [Kind.regions]) (fun x hx => nomatch hx)
    · exact hone hc (by simp [Kind.regions]) (fun x hx => nomatch hx)
    · exact (await_none hc).elim
  | movePeer n region new old leader peers =>
    simp only [List.mem_cons, List.not_mem_nil, or_false] at ht
    rcases ht with rfl | rfl | rfl | rfl | rfl | rfl | rfl
    · exact hone hc (by simp [Kind.regions]) (fun x hx => nomatch hx)
    · exact (await_none hc).elim
    · exact hone hc (by simp [Kind.regions]) (fun x hx => nomatch hx)
    · exact (await_none hc).elim
    · exact hone hc (by simp [Kind.regions]) (fun x hx => nomatch hx)
    · exact hone hc (by simp [Kind.regions]) (fun x hx => nomatch hx)
    · exact (await_none hc).elim
  | transfer n region store leader =>
    simp only [List.mem_cons, List.not_mem_nil, or_false] at ht
    subst ht
    exact hone hc (by simp [Kind.regions]) (fun x hx => nomatch hx)

/-- The regions of a job that changes regions are named by one of its commands. -/
theorem shape_regions {j : Job} (hs : Shape j) (hk : j.kind.changes) {r : Nat} (hr : r ∈ j.kind.regions) :
    ∃ t ∈ j.tasks, ∃ c ∈ t.cmds, c.Names r := by
  have key : ∀ {A B : List Task} {a : Nat} {ch : Check} {c : Cmd}, c.Names r → ∃ t ∈ A ++ one a ch c :: B, ∃ c ∈ t.cmds, c.Names r :=
    fun {A B a ch c} h => ⟨one a ch c, by simp, c, by simp [one, Task.cmds], h⟩
  cases hs with
  | create => exact hk.elim
  | drop => exact hk.elim
  | transfer => exact hk.elim
  | split n m k region child leader byStore q =>
    simp only [Kind.regions, List.mem_cons, List.not_mem_nil, or_false] at hr
    have := key (A := splitVector n region q ++ [each ((number m (if byStore then [] else q.peers)).map (fun x => (x.2, .none, ⟨x.1, .create, child, .none, [], false⟩))),
         stateTask (if byStore then [] else q.peers) child (some .standby),
         stateTask q.peers region (some .normal)]) (B := [stateTask (if byStore then [] else q.peers) child (some .normal)])
      (a := leader) (ch := if byStore then .none else .region { regionCheck child with state := some .standby })
      (c := ⟨k, .split, region, some child, [], false⟩) (by
        rcases hr with rfl | rfl
        · exact Or.inl rfl
        · exact Or.inr rfl)
    rw [List.append_assoc] at this
    exact this
  | splitInto n region child leader =>
    simp only [Kind.regions, List.mem_cons, List.not_mem_nil, or_false] at hr
    exact key (A := []) (by
        rcases hr with rfl | rfl
        · exact Or.inl rfl
        · exact Or.inr rfl)
  | merge n k source target leader g q =>
    simp only [Kind.regions, List.mem_cons, List.not_mem_nil, or_false] at hr
    exact key (by
        rcases hr with rfl | rfl
        · exact Or.inl rfl
        · exact Or.inr rfl)
  | addPeer n region store leader old =>
    simp only [Kind.regions, List.mem_cons, List.not_mem_nil, or_false] at hr
    exact key (A := []) (by rw [hr]; exact Or.inl rfl)
  | removePeer n region store leader kept =>
    simp only [Kind.regions, List.mem_cons, List.not_mem_nil, or_false] at hr
    exact key (A := []) (by rw [hr]; exact Or.inl rfl)
  | movePeer n region new old leader peers =>
    simp only [Kind.regions, List.mem_cons, List.not_mem_nil, or_false] at hr
    exact key (A := []) (by rw [hr]; exact Or.inl rfl)

theorem creates_option {o : Option Job} {j : Job} : j ∈ creates ((o.map Inc.create).toList) ↔ o = some j := by
  cases o with
  | none => simp [creates]
  | some k => simp [creates, eq_comm]

theorem drop_made {v : View} {n r : Nat} {is : List Inc} (hd : dropFinal v n r = some is) {q : Rec} (hq : v.regions r = some q)
    (h1 : ¬ (q.state = .deleted ∨ q.state = .delete ∨ q.state = .deleting)) {st : Nat} (hst : st ∈ q.peers) :
    ∃ j, Inc.create j ∈ is ∧ j.kind = .drop r st := by
  unfold dropFinal at hd
  rw [hq] at hd
  simp only [h1, if_false, Option.some.injEq] at hd
  subst hd
  have hnum : ∀ (l : List Nat) (n : Nat), st ∈ l → ∃ m, (m, st) ∈ number n l := by
    intro l
    induction l with
    | nil => intro n h; cases h
    | cons a l ih =>
      intro n h
      rcases List.mem_cons.mp h with rfl | h
      · exact ⟨n, List.mem_cons_self ..⟩
      · obtain ⟨m, hm⟩ := ih (n + 1) h
        exact ⟨m, List.mem_cons_of_mem _ hm⟩
  obtain ⟨m, hm⟩ := hnum q.peers n hst
  refine ⟨⟨m, .drop r st, [deleteTask m st r .none], 0⟩, ?_, rfl⟩
  refine List.mem_cons_of_mem _ (List.mem_map.mpr ⟨_, ?_, rfl⟩)
  exact List.mem_map.mpr ⟨(m, st), hm, rfl⟩

theorem perm_false {a b : List Nat} : a.isPerm b = false ↔ ¬ a.Perm b := by
  rw [← List.isPerm_iff]; simp

/-! ## Requests -/

/-- Which requests make which jobs. -/
theorem C87_granted (cap : Nat) (s : State) (v : View) (q : Req) (k : Kind) :
    (∃ j, Shows cap s (.request v q) (.made j) ∧ j.kind = k) ↔ Grants s.jobs.jobs v q k := by
  have hsh : ∀ j, Shows cap s (.request v q) (.made j) ↔ j ∈ creates (request s.jobs.jobs v s.counter q) :=
    fun j => ⟨fun h => shows_made h, fun h => .request h⟩
  simp only [hsh]
  generalize s.jobs.jobs = jobs
  generalize s.counter = n
  clear hsh
  constructor
  · rintro ⟨j, hj, rfl⟩
    cases q with
    | drop r =>
      simp only [request] at hj
      split at hj
      · cases hj
      · rename_i hc
        have hc : conflict jobs r r = false := by simpa using hc
        cases hd : dropFinal v n r with
        | none => rw [hd] at hj; cases hj
        | some is =>
          rw [hd] at hj
          obtain ⟨q, st, hq, hst, he⟩ := dropFinal_create hd (mem_creates.mp hj)
          rw [he]
          have hns : ¬ (q.state = .deleted ∨ q.state = .delete ∨ q.state = .deleting) := by
            intro hns
            unfold dropFinal at hd
            rw [hq] at hd
            simp only [hns, if_true, Option.some.injEq] at hd
            subst hd; cases hj
          simp only [not_or] at hns
          exact .drop (conflict_iff.mp hc).1 hq hns.1 hns.2.1 hns.2.2 hst
    | create r stores =>
      have hp : plan jobs v n (.create r stores) = some j := creates_option.mp hj
      simp only [plan, Option.some.injEq] at hp
      subst hp; exact .create
    | split r child key byStore =>
      have hp := creates_option.mp hj
      simp only [plan] at hp
      split at hp
      · cases hp
      · rename_i hc
        split at hp
        · cases hp
        · rename_i q hq
          split at hp
          · cases hp
          · rename_i hn
            simp only [not_or, Decidable.not_not, fit_false] at hn
            cases hp
            have hc := conflict_iff.mp (by simpa using hc)
            exact .split hc.1 hc.2 hq hn.2.1 hn.1.1 hn.1.2 (by simpa using hn.2.2)
    | splitInto r child =>
      have hp := creates_option.mp hj
      simp only [plan] at hp
      split at hp
      · cases hp
      · rename_i hc
        split at hp
        · rename_i q p hq hp'
          split at hp
          · cases hp
          · rename_i hn
            simp only [not_or, Decidable.not_not, ne_eq, fit_false, perm_false] at hn
            cases hp
            have hc := conflict_iff.mp (by simpa using hc)
            exact .splitInto hc.1 hc.2 hq hp' hn.1 hn.2.1 hn.2.2.1 hn.2.2.2
        · cases hp
    | merge a b =>
      have hp := creates_option.mp hj
      simp only [plan] at hp
      split at hp
      · cases hp
      · rename_i hc
        split at hp
        · rename_i q p hq hp'
          split at hp
          · cases hp
          · rename_i g hg
            split at hp
            · cases hp
            · rename_i hn
              simp only [not_or, Decidable.not_not, ne_eq, fit_false, perm_false] at hn
              cases hp
              have hc := conflict_iff.mp (by simpa using hc)
              refine .merge hc.1 hc.2 hq hp' hn.1 hn.2.1 hn.2.2.1 hn.2.2.2.1 hn.2.2.2.2 ?_
              unfold mergedRange at hg
              split at hg
              · rename_i h1; cases hg; exact Or.inl ⟨h1, rfl⟩
              · split at hg
                · rename_i h1 h2; cases hg; exact Or.inr ⟨h1, h2, rfl⟩
                · cases hg
        · cases hp
    | addPeer r st =>
      have hp := creates_option.mp hj
      simp only [plan] at hp
      split at hp
      · cases hp
      · rename_i hc
        split at hp
        · cases hp
        · rename_i q hq
          split at hp
          · cases hp
          · rename_i hn
            simp only [not_or, fit_false, Decidable.not_not] at hn
            cases hp
            exact .addPeer (conflict_iff.mp (by simpa using hc)).1 hq hn.1 hn.2
    | removePeer r st =>
      have hp := creates_option.mp hj
      simp only [plan] at hp
      split at hp
      · cases hp
      · rename_i hc
        split at hp
        · cases hp
        · rename_i q hq
          split at hp
          · cases hp
          · rename_i hn
            simp only [not_or, fit_false, Decidable.not_not, not_and, Nat.not_lt] at hn
            cases hp
            exact .removePeer (conflict_iff.mp (by simpa using hc)).1 hq hn.1 hn.2.1 hn.2.2
    | movePeer r new old =>
      have hp := creates_option.mp hj
      simp only [plan] at hp
      split at hp
      · cases hp
      · rename_i hc
        split at hp
        · cases hp
        · rename_i q hq
          split at hp
          · cases hp
          · rename_i hn
            simp only [not_or, fit_false, Decidable.not_not, not_and, Nat.not_lt] at hn
            cases hp
            refine .movePeer (conflict_iff.mp (by simpa using hc)).1 hq hn.1 hn.2.1 hn.2.2.1 (fun h => ?_)
            have := hn.2.2.2 h
            rw [List.length_cons] at this
            omega
    | transfer r st =>
      have hp := creates_option.mp hj
      simp only [plan] at hp
      split at hp
      · cases hp
      · rename_i q hq
        split at hp
        · cases hp
        · rename_i hn
          simp only [not_or, Decidable.not_not, ne_eq, Bool.not_eq_false] at hn
          cases hp
          exact .transfer hq hn.1 hn.2.1 hn.2.2.1 hn.2.2.2.1 hn.2.2.2.2
  · intro h
    have made : ∀ {q k}, (∃ j, plan jobs v n q = some j ∧ j.kind = k) → ∃ j, j ∈ creates (request jobs v n q) ∧ j.kind = k := by
      rintro q k ⟨j, hj, hk⟩
      refine ⟨j, ?_, hk⟩
      cases q with
      | drop r => cases hj
      | _ => exact creates_option.mpr hj
    cases h with
    | create => exact made ⟨_, rfl, rfl⟩
    | @drop r q st hf hq h1 h2 h3 hst =>
      have hns : ¬ (q.state = .deleted ∨ q.state = .delete ∨ q.state = .deleting) := by simp [h1, h2, h3]
      have hd : ∃ is, dropFinal v n r = some is := by
        unfold dropFinal
        rw [hq]
        simp only [hns, if_false]
        exact ⟨_, rfl⟩
      obtain ⟨is, hd⟩ := hd
      obtain ⟨j, hj, hk⟩ := drop_made hd hq hns hst
      refine ⟨j, ?_, hk⟩
      simp only [request, conflict_iff.mpr ⟨hf, hf⟩, hd, Option.getD_some, Bool.false_eq_true, if_false]
      exact mem_creates.mpr hj
    | @split r child key byStore q hf h0 hq hfit h1 h2 h3 =>
      refine made ?_
      · simp only [plan, conflict_iff.mpr ⟨hf, h0⟩, hq, Bool.false_eq_true, if_false]
        rw [if_neg (by
          simp only [not_or, Decidable.not_not, fit_false]
          exact ⟨⟨h1, h2⟩, hfit, by simp [h3]⟩)]
        exact ⟨_, rfl, rfl⟩
    | @splitInto r child q p hf h0 hq hp hfit h1 h2 h3 =>
      refine made ?_
      · simp only [plan, conflict_iff.mpr ⟨hf, h0⟩, hq, hp, Bool.false_eq_true, if_false]
        rw [if_neg (by
          simp only [not_or, Decidable.not_not, fit_false, perm_false, ne_eq]
          exact ⟨hfit, h1, h2, h3⟩)]
        exact ⟨_, rfl, rfl⟩
    | @merge a b q p g hf h0 hq hp hfit hfit' h1 h2 h3 h4 =>
      have hg : mergedRange q.range p.range = some g := by
        unfold mergedRange
        rcases h4 with ⟨h, rfl⟩ | ⟨h, h', rfl⟩
        · rw [if_pos h]
        · rw [if_neg h, if_pos h']
      refine made ?_
      · simp only [plan, conflict_iff.mpr ⟨hf, h0⟩, hq, hp, hg, Bool.false_eq_true, if_false]
        rw [if_neg (by
          simp only [not_or, Decidable.not_not, fit_false, perm_false, ne_eq]
          exact ⟨hfit, hfit', h1, h2, h3⟩)]
        exact ⟨_, rfl, rfl⟩
    | @addPeer r st q hf hq hfit h1 =>
      refine made ?_
      · simp only [plan, conflict_iff.mpr ⟨hf, hf⟩, hq, Bool.false_eq_true, if_false]
        rw [if_neg (by
          simp only [not_or, Decidable.not_not, fit_false]
          exact ⟨hfit, h1⟩)]
        exact ⟨_, rfl, rfl⟩
    | @removePeer r st q hf hq hfit h1 h2 =>
      refine made ?_
      · simp only [plan, conflict_iff.mpr ⟨hf, hf⟩, hq, Bool.false_eq_true, if_false]
        rw [if_neg (by
          simp only [not_or, Decidable.not_not, fit_false, not_and, Nat.not_lt]
          exact ⟨hfit, h1, h2⟩)]
        exact ⟨_, rfl, rfl⟩
    | @movePeer r new old q hf hq hfit h1 h2 h3 =>
      refine made ?_
      · simp only [plan, conflict_iff.mpr ⟨hf, hf⟩, hq, Bool.false_eq_true, if_false]
        rw [if_neg (by
          simp only [not_or, Decidable.not_not, fit_false, not_and, Nat.not_lt]
          refine ⟨hfit, h1, h2, fun h => ?_⟩
          have := h3 h
          rw [List.length_cons]
          omega)]
        exact ⟨_, rfl, rfl⟩
    | @transfer r st q hq h1 h2 h3 h4 h5 =>
      refine made ?_
      · simp only [plan, hq]
        rw [if_neg (by
          simp only [not_or, Decidable.not_not, ne_eq, Bool.not_eq_false]
          exact ⟨h1, h2, h3, h4, h5⟩)]
        exact ⟨_, rfl, rfl⟩

/-! ## One change at a time: lemmas -/

/-- The jobs in the table, and those that entries not yet applied make or put back. -/
def live (s : State) : List Job := s.jobs.jobs ++ s.pending.flatMap (fun e => e.flatMap Inc.jobs)

/-- The same job, perhaps at another time. -/
def Same (a b : Job) : Prop := a.id = b.id ∧ a.kind = b.kind

theorem onStatus_live {s : Jobs} {k : Job} (hk : k ∈ s.jobs) {c : Nat} {st : Status} {j : Job} (h : j ∈ (s.onStatus k c st).jobs) :
    ∃ a ∈ s.jobs, Same a j := by
  unfold Jobs.onStatus at h
  have self : j ∈ s.jobs → ∃ a ∈ s.jobs, Same a j := fun h => ⟨j, h, rfl, rfl⟩
  split at h
  · exact self h
  · split at h
    · exact self h
    · split at h
      · split at h
        · rcases mem_putJob h with rfl | h
          · exact ⟨k, hk, rfl, rfl⟩
          · exact self h
        · exact self h
      · split at h
        · exact self h
        · split at h
          · exact self (mem_erase.mp h).1
          · rcases mem_putJob h with rfl | h
            · exact ⟨k, hk, rfl, rfl⟩
            · exact self h

theorem apply_live {s s' : Jobs} {i : Inc} (hs : s.apply i = some s') {j : Job} (h : j ∈ s'.jobs) :
    ∃ a ∈ s.jobs ++ i.jobs, Same a j := by
  have self : j ∈ s.jobs → ∃ a ∈ s.jobs ++ i.jobs, Same a j := fun h => ⟨j, List.mem_append_left _ h, rfl, rfl⟩
  cases i with
  | create k =>
    cases hs
    rcases mem_putJob h with rfl | h
    · exact ⟨j, by simp [Inc.jobs], rfl, rfl⟩
    · exact self h
  | update k =>
    cases hs
    rcases mem_putJob h with rfl | h
    · exact ⟨j, by simp [Inc.jobs], rfl, rfl⟩
    · exact self h
  | delete id =>
    simp only [Jobs.apply] at hs
    split at hs
    · cases hs
    · cases hs; exact self (mem_erase.mp h).1
  | status id c st =>
    simp only [Jobs.apply] at hs
    split at hs
    · cases hs; exact self h
    · rename_i k hk
      cases hs
      obtain ⟨a, ha, he⟩ := onStatus_live (get_some hk).1 h
      exact ⟨a, List.mem_append_left _ ha, he⟩
  | move id c st =>
    simp only [Jobs.apply] at hs
    split at hs
    · cases hs; exact self h
    · rename_i k hk
      split at hs
      · cases hs; exact self h
      · split at hs
        · cases hs; exact self h
        · cases hs
          rcases mem_putJob h with rfl | h
          · exact ⟨k, List.mem_append_left _ (get_some hk).1, rfl, rfl⟩
          · exact self h
  | drop r => cases hs; exact self h

theorem applyAll_live : ∀ {e : List Inc} {s s' : Jobs}, s.applyAll e = some s' → ∀ {j : Job}, j ∈ s'.jobs →
    ∃ a ∈ s.jobs ++ e.flatMap Inc.jobs, Same a j
  | [], s, s', hs, j, h => by cases hs; exact ⟨j, by simpa using h, rfl, rfl⟩
  | i :: e, s, s', hs, j, h => by
    simp only [Jobs.applyAll] at hs
    cases hi : s.apply i with
    | none => rw [hi] at hs; cases hs
    | some s1 =>
      rw [hi] at hs
      obtain ⟨a, ha, he⟩ := applyAll_live (s := s1) hs h
      rcases List.mem_append.mp ha with ha | ha
      · obtain ⟨b, hb, hbe⟩ := apply_live hi ha
        refine ⟨b, ?_, hbe.1.trans he.1, hbe.2.trans he.2⟩
        rcases List.mem_append.mp hb with hb | hb
        · exact List.mem_append_left _ hb
        · exact List.mem_append_right _ (by rw [List.flatMap_cons]; exact List.mem_append_left _ hb)
      · exact ⟨a, List.mem_append_right _ (by rw [List.flatMap_cons]; exact List.mem_append_right _ ha), he⟩

/-- The jobs an entry makes or puts back: new ones, and ones from the table. -/
theorem prepare_jobs {cap : Nat} {s : State} {e : Ev} {j : Job} (h : j ∈ (s.prepare cap e).flatMap Inc.jobs) :
    j ∈ creates (s.prepare cap e) ∨ ∃ a ∈ s.jobs.jobs, Same a j := by
  obtain ⟨i, hi, hj⟩ := List.mem_flatMap.mp h
  cases i with
  | create k =>
    have : j = k := by simpa [Inc.jobs] using hj
    subst this
    exact Or.inl (mem_creates.mpr hi)
  | update k =>
    have : j = k := by simpa [Inc.jobs] using hj
    subst this
    right
    cases e with
    | request v q =>
      exfalso
      have hr : Inc.update j ∈ request s.jobs.jobs v s.counter q := hi
      cases q with
      | drop r =>
        simp only [request] at hr
        split at hr
        · cases hr
        · cases hd : dropFinal v s.counter r with
          | none => rw [hd] at hr; cases hr
          | some is =>
            rw [hd] at hr
            unfold dropFinal at hd
            split at hd
            · cases hd
            · split at hd
              · cases hd; cases hr
              · cases hd
                simp at hr
      | _ =>
        simp only [request, Option.mem_toList, Option.map_eq_some_iff] at hr
        obtain ⟨a, _, ha⟩ := hr
        cases ha
    | pass v order reply =>
      have hr : Inc.update j ∈ (pass v cap s.jobs s.counter order reply).1 := hi
      unfold pass at hr
      rcases List.mem_append.mp hr with hr | hr
      · obtain ⟨k, hk, _, hw⟩ := processAll_inc hr
        generalize hie : Inc.update j = i at hw
        cases hw with
        | delete => cases hie
        | update => cases hie; exact ⟨k, hk, rfl, rfl⟩
        | drop _ _ hd =>
          exfalso
          subst hie
          have key : ∀ (l : List Nat) (n : Nat), Inc.update j ∉ (addDrops v n l).2 := by
            intro l
            induction l with
            | nil => intro n h; cases h
            | cons r l ih =>
              intro n h
              unfold addDrops at h
              cases hd : dropFinal v n r with
              | none => rw [hd] at h; cases h
              | some is =>
                rw [hd] at h
                rcases List.mem_append.mp h with h | h
                · unfold dropFinal at hd
                  split at hd
                  · cases hd
                  · split at hd
                    · cases hd; cases h
                    · cases hd
                      simp at h
                · exact ih _ h
          exact key _ _ hd
      · obtain ⟨x, _, a, _, hx⟩ := sendAll_inc hr
        cases a with
        | code c => simp [Sent.result] at hx
        | notLeader st =>
          simp only [Sent.result] at hx
          split at hx
          · cases hx
          · simp at hx
    | report a b =>
      simp only [State.prepare] at hi
      split at hi
      · simp at hi
      · cases hi
    | clean id =>
      simp [State.prepare, clean] at hi
    | commit k => cases hi
    | lose k => cases hi
  | delete _ => cases hj
  | status _ _ _ => cases hj
  | move _ _ _ => cases hj
  | drop _ => cases hj

theorem live_step {cap : Nat} {s s' : State} {e : Ev} (hs : s.step cap e = some s') {j : Job} (h : j ∈ live s') :
    j ∈ creates (s.prepare cap e) ∨ ∃ a ∈ live s, Same a j := by
  have base : s' = { s with counter := above s.counter (s.prepare cap e), pending := s.pending ++ [s.prepare cap e] } →
      j ∈ creates (s.prepare cap e) ∨ ∃ a ∈ live s, Same a j := by
    intro he
    rw [he] at h
    simp only [live, List.flatMap_append, List.flatMap_cons, List.flatMap_nil, List.append_nil] at h
    rcases List.mem_append.mp h with h | h
    · exact Or.inr ⟨j, List.mem_append_left _ h, rfl, rfl⟩
    · rcases List.mem_append.mp h with h | h
      · exact Or.inr ⟨j, List.mem_append_right _ h, rfl, rfl⟩
      · exact (prepare_jobs h).imp id (fun ⟨a, ha, he⟩ => ⟨a, List.mem_append_left _ ha, he⟩)
  cases e with
  | commit i =>
    right
    simp only [State.step] at hs
    split at hs
    · cases hs; exact ⟨j, h, rfl, rfl⟩
    · rename_i en hen
      cases ha : s.jobs.applyAll en with
      | none => rw [ha] at hs; cases hs
      | some s1 =>
        rw [ha] at hs
        cases hs
        rcases List.mem_append.mp h with h | h
        · obtain ⟨a, ham, he⟩ := applyAll_live ha h
          refine ⟨a, ?_, he⟩
          rcases List.mem_append.mp ham with ham | ham
          · exact List.mem_append_left _ ham
          · exact List.mem_append_right _ (List.mem_flatMap.mpr ⟨en, List.mem_of_getElem? hen, ham⟩)
        · obtain ⟨en', hen', hj⟩ := List.mem_flatMap.mp h
          exact ⟨j, List.mem_append_right _ (List.mem_flatMap.mpr ⟨en', List.mem_of_mem_eraseIdx hen', hj⟩), rfl, rfl⟩
  | lose i =>
    right
    cases hs
    rcases List.mem_append.mp h with h | h
    · exact ⟨j, List.mem_append_left _ h, rfl, rfl⟩
    · obtain ⟨en', hen', hj⟩ := List.mem_flatMap.mp h
      exact ⟨j, List.mem_append_right _ (List.mem_flatMap.mpr ⟨en', List.mem_of_mem_eraseIdx hen', hj⟩), rfl, rfl⟩
  | request v q => cases hs; exact base rfl
  | pass v order reply => cases hs; exact base rfl
  | report a b => cases hs; exact base rfl
  | clean id => cases hs; exact base rfl

/-- The job that was made. -/
theorem live_made {h : Obs → Prop} {s : State} (hi : Inv h s) {j : Job} (hj : j ∈ live s) : ∃ j0, h (.made j0) ∧ Same j0 j := by
  rcases List.mem_append.mp hj with hj | hj
  · obtain ⟨j0, h0⟩ := hi.tab.ok j hj
    exact ⟨j0, h0.made, h0.like.id.symm, h0.like.kind.symm⟩
  · obtain ⟨e, he, hj⟩ := List.mem_flatMap.mp hj
    obtain ⟨i, hie, hj⟩ := List.mem_flatMap.mp hj
    have hok := hi.pend e he i hie
    cases i with
    | create k =>
      have : j = k := by simpa [Inc.jobs] using hj
      subst this
      exact ⟨j, hok, rfl, rfl⟩
    | update k =>
      have : j = k := by simpa [Inc.jobs] using hj
      subst this
      obtain ⟨j0, h0⟩ := hok
      exact ⟨j0, h0.made, h0.like.id.symm, h0.like.kind.symm⟩
    | delete _ => cases hj
    | status _ _ _ => cases hj
    | move _ _ _ => cases hj
    | drop _ => cases hj

/-- A region that no job names is not a region of a job in the table. -/
theorem free_regions {cap : Nat} {s : State} {h : Obs → Prop} (hr : Run cap s h) {r : Nat} (hf : Free s.jobs.jobs r) {j : Job}
    (hj : j ∈ s.jobs.jobs) (hk : j.kind.changes) : r ∉ j.kind.regions := by
  intro hm
  obtain ⟨j0, h0⟩ := (run_inv hr).tab.ok j hj
  rw [h0.like.kind] at hk hm
  obtain ⟨t0, ht0, c0, hc0, hn⟩ := shape_regions (made_shape hr h0.made) hk hm
  obtain ⟨i, hlt, hi⟩ := List.mem_iff_getElem.mp ht0
  have hi0 : j0.tasks[i]? = some t0 := by rw [List.getElem?_eq_getElem hlt, hi]
  have hlt' : i < j.tasks.length := by rw [h0.like.length]; exact hlt
  obtain ⟨c, hc, hce⟩ := (h0.like.task i t0 j.tasks[i] hi0 (List.getElem?_eq_getElem hlt')).mem' hc0
  refine hf j hj _ (List.getElem_mem hlt') c hc ?_
  unfold Cmd.Names
  rw [plain_region hce, plain_other hce]
  exact hn

/-- The regions of a change that is granted are free, but for the new region of a split. -/
theorem granted_free {jobs : List Job} {v : View} {q : Req} {k : Kind} (h : Grants jobs v q k) (hk : k.changes) {r : Nat}
    (hr : r ∈ k.regions) : Free jobs r ∨ ∃ a key b, q = .split a r key b := by
  cases h with
  | create => exact hk.elim
  | drop => exact hk.elim
  | transfer => exact hk.elim
  | split h1 =>
    simp only [Kind.regions, List.mem_cons, List.not_mem_nil, or_false] at hr
    rcases hr with rfl | rfl
    · exact Or.inl h1
    · exact Or.inr ⟨_, _, _, rfl⟩
  | splitInto h1 h2 =>
    simp only [Kind.regions, List.mem_cons, List.not_mem_nil, or_false] at hr
    rcases hr with rfl | rfl
    · exact Or.inl h1
    · exact Or.inl h2
  | merge h1 h2 =>
    simp only [Kind.regions, List.mem_cons, List.not_mem_nil, or_false] at hr
    rcases hr with rfl | rfl
    · exact Or.inl h1
    · exact Or.inl h2
  | addPeer h1 =>
    simp only [Kind.regions, List.mem_cons, List.not_mem_nil, or_false] at hr
    rw [hr]; exact Or.inl h1
  | removePeer h1 =>
    simp only [Kind.regions, List.mem_cons, List.not_mem_nil, or_false] at hr
    rw [hr]; exact Or.inl h1
  | movePeer h1 =>
    simp only [Kind.regions, List.mem_cons, List.not_mem_nil, or_false] at hr
    rw [hr]; exact Or.inl h1

/-- Jobs that change regions have none in common. -/
def Apart (l : List Job) : Prop :=
  ∀ a ∈ l, ∀ b ∈ l, a.kind.changes → b.kind.changes → a.id ≠ b.id → ∀ r ∈ a.kind.regions, r ∉ b.kind.regions

theorem calm_apart {cap : Nat} {s : State} {h : Obs → Prop} (hc : CalmRun cap s h) : Apart (live s) := by
  induction hc with
  | start => intro a ha; cases ha
  | @step s s' h e hc hf hcalm hs ih =>
    -- a new job against one that was there
    have new : ∀ j ∈ creates (s.prepare cap e), j.kind.changes → ∀ a ∈ live s, a.kind.changes → ∀ r ∈ j.kind.regions, r ∉ a.kind.regions := by
      intro j hj hjk a ha hak r hr hra
      cases e with
      | request v q =>
        have hg : Grants s.jobs.jobs v q j.kind := (C87_granted cap s v q j.kind).mp ⟨j, .request hj, rfl⟩
        have hcal : (∀ e ∈ s.pending, ∀ i ∈ e, ∀ j ∈ i.jobs, ∃ k ∈ s.jobs.jobs, k.id = j.id) ∧
            ∀ r child key b, q = .split r child key b → ∀ j, h (.made j) → child ∉ j.kind.regions := by
          generalize hk : j.kind = k at hg
          rw [hk] at hjk
          cases hg with
          | create => exact hjk.elim
          | drop => exact hjk.elim
          | transfer => exact hjk.elim
          | _ => exact hcalm
        obtain ⟨a0, ha0, hsame⟩ := live_made (run_inv hc.run) ha
        rcases granted_free hg hjk hr with hfr | ⟨x, key, b, hq⟩
        · -- the job in the table
          have htab : ∃ k ∈ s.jobs.jobs, Same k a := by
            rcases List.mem_append.mp ha with ha | ha
            · exact ⟨a, ha, rfl, rfl⟩
            · obtain ⟨en, hen, ham⟩ := List.mem_flatMap.mp ha
              obtain ⟨i, hien, hai⟩ := List.mem_flatMap.mp ham
              obtain ⟨k, hk, hka⟩ := hcal.1 en hen i hien a hai
              obtain ⟨k0, hk0⟩ := (run_inv hc.run).tab.ok k hk
              have hid : k0.id = a0.id := by rw [hsame.1, ← hk0.like.id, hka]
              have := (run_inv hc.run).hist.uniq k0 a0 hk0.made ha0 hid
              subst this
              exact ⟨k, hk, hka, by rw [hk0.like.kind, hsame.2]⟩
          obtain ⟨k, hk, hka⟩ := htab
          refine free_regions hc.run hfr hk ?_ ?_
          · rw [hka.2]; exact hak
          · rw [hka.2]; exact hra
        · refine hcal.2 x r key b hq a0 ha0 ?_
          rw [hsame.2]; exact hra
      | pass v order reply =>
        obtain ⟨_, _, _, _, _, _, _, _, _, _, _, he⟩ := pass_create hj
        rw [he] at hjk; exact hjk
      | report x y =>
        have : creates (s.prepare cap (.report x y)) = [] := by simp only [State.prepare]; split <;> rfl
        rw [this] at hj; cases hj
      | clean id =>
        have := mem_creates.mp hj
        simp [State.prepare, clean] at this
      | commit i => cases hj
      | lose i => cases hj
    intro a ha b hb hak hbk hab r hra hrb
    rcases live_step hs ha with ha | ⟨a1, ha1, hsa⟩
    · rcases live_step hs hb with hb | ⟨b1, hb1, hsb⟩
      · -- one request makes one job that changes regions
        cases e with
        | request v q =>
          rcases request_create ha with hpa | ⟨_, _, _, _, _, _, _, he⟩
          · rcases request_create hb with hpb | ⟨_, _, _, _, _, _, _, he⟩
            · rw [hpa] at hpb; cases hpb; exact hab rfl
            · rw [he] at hbk; exact hbk
          · rw [he] at hak; exact hak
        | pass v order reply =>
          obtain ⟨_, _, _, _, _, _, _, _, _, _, _, he⟩ := pass_create ha
          rw [he] at hak; exact hak
        | report x y =>
          have : creates (s.prepare cap (.report x y)) = [] := by simp only [State.prepare]; split <;> rfl
          rw [this] at ha; cases ha
        | clean id =>
          have := mem_creates.mp ha
          simp [State.prepare, clean] at this
        | commit i => cases ha
        | lose i => cases ha
      · exact new a ha hak b1 hb1 (by rw [hsb.2]; exact hbk) r hra (by rw [hsb.2]; exact hrb)
    · rcases live_step hs hb with hb | ⟨b1, hb1, hsb⟩
      · exact new b hb hbk a1 ha1 (by rw [hsa.2]; exact hak) r hrb (by rw [hsa.2]; exact hra)
      · exact ih a1 ha1 b1 hb1 (by rw [hsa.2]; exact hak) (by rw [hsb.2]; exact hbk) (by rw [hsa.1, hsb.1]; exact hab) r
          (by rw [hsa.2]; exact hra) (by rw [hsb.2]; exact hrb)

/-! ## One change at a time -/

/-- Of two commands sent at once for two jobs that change regions, no region is named by both.
Missing: runs in which a change is asked for while the entry of another one is not applied yet, or
while an entry is under way that puts back a job that is gone (`C87_together_false`,
`C87_stale_false`); transfers of leaders, and deletions of dropped regions (`C87_transfer_false`). -/
theorem C87_exclusive_partial {cap : Nat} {s : State} {h : Obs → Prop} (hc : CalmRun cap s h) {v : View} {order : List Nat}
    {reply : Nat → Bool → Reply} {x y : Sent} (hx : x ∈ s.sends cap (.pass v order reply))
    (hy : y ∈ s.sends cap (.pass v order reply)) (hxy : x.job ≠ y.job) {a b : Job} (ha : h (.made a)) (hb : h (.made b))
    (hax : a.id = x.job) (hby : b.id = y.job) (hak : a.kind.changes) (hbk : b.kind.changes) {r : Nat} (hr : x.cmd.Names r) :
    ¬ y.cmd.Names r := by
  have hi := run_inv hc.run
  -- a command sent names regions of its job only
  have key : ∀ {x : Sent} {a : Job} {r : Nat}, x ∈ s.sends cap (.pass v order reply) → h (.made a) → a.id = x.job → x.cmd.Names r →
      (∃ j ∈ live s, Same j a) ∧ r ∈ a.kind.regions := by
    intro x a r hx ha hax hr
    obtain ⟨j, j0, hj, _, ho, hd⟩ := pass_sent hi hx
    have : j0 = a := hi.hist.uniq j0 a ho.made ha (by rw [hax, hd.job, ho.like.id])
    subst this
    refine ⟨⟨j, List.mem_append_left _ hj, ho.like.id, ho.like.kind⟩, ?_⟩
    obtain ⟨t, ht, _, o, hot, _, hcm⟩ := hd.task
    obtain ⟨t0, ht0, htl⟩ := ho.like.get ht
    obtain ⟨c0, hc0, hce⟩ := htl.mem (List.mem_flatMap.mpr ⟨o, hot, hcm⟩)
    refine shape_names (made_shape hc.run ho.made) (List.mem_of_getElem? ht0) hc0 ?_
    unfold Cmd.Names
    rw [plain_region hce, plain_other hce]
    exact hr
  intro hry
  obtain ⟨⟨j, hj, hsj⟩, hra⟩ := key hx ha hax hr
  obtain ⟨⟨k, hk, hsk⟩, hrb⟩ := key hy hb hby hry
  exact calm_apart hc j hj k hk (by rw [hsj.2]; exact hak) (by rw [hsk.2]; exact hbk) (by rw [hsj.1, hsk.1, hax, hby]; exact hxy) r
    (by rw [hsj.2]; exact hra) (by rw [hsk.2]; exact hrb)

/-- While a job that changes a region is in the table, no other change of the region, and no drop,
is granted. -/
theorem C87_refused {cap : Nat} {s : State} {h : Obs → Prop} (hr : Run cap s h) {j : Job} (hj : j ∈ s.jobs.jobs)
    (hk : j.kind.changes) {r : Nat} (hrj : r ∈ j.kind.regions) {v : View} {q : Req}
    (hq : q = .drop r ∨ (∃ c key b, q = .split r c key b) ∨ (∃ c, q = .splitInto r c) ∨ (∃ c, q = .splitInto c r) ∨ (∃ c, q = .merge r c) ∨
      (∃ c, q = .merge c r) ∨ (∃ st, q = .addPeer r st) ∨ (∃ st, q = .removePeer r st) ∨ ∃ new old, q = .movePeer r new old) :
    s.prepare cap (.request v q) = [] := by
  have hfree : ¬ Free s.jobs.jobs r := fun hf => free_regions hr hf hj hk hrj
  have hconf : ∀ c, conflict s.jobs.jobs r c = true ∧ conflict s.jobs.jobs c r = true := by
    intro c
    constructor
    · cases h : conflict s.jobs.jobs r c with
      | true => rfl
      | false => exact absurd (conflict_iff.mp h).1 hfree
    · cases h : conflict s.jobs.jobs c r with
      | true => rfl
      | false => exact absurd (conflict_iff.mp h).2 hfree
  rcases hq with rfl | ⟨c, key, b, rfl⟩ | ⟨c, rfl⟩ | ⟨c, rfl⟩ | ⟨c, rfl⟩ | ⟨c, rfl⟩ | ⟨st, rfl⟩ | ⟨st, rfl⟩ | ⟨new, old, rfl⟩ <;>
    simp [State.prepare, request, plan, hconf]

/-! ## Cases, and what does not hold -/

namespace Example

/-- Regions 7 and 8 on stores 1, 2 and 3. -/
def both : View :=
  ⟨fun r => if r = 7 ∨ r = 8 then some (rec7 [1, 2, 3]) else none,
   fun st r => if (r = 7 ∨ r = 8) ∧ st ∈ [1, 2, 3] then some ⟨.normal, false, false, 0⟩ else none⟩

end Example

open Example in
/-- Changes of two regions at once (the hypotheses of `C87_exclusive_partial`). -/
example : ∃ s h x y a b, CalmRun 100 s h ∧ x ∈ s.sends 100 (.pass both [1, 2] allOk) ∧ y ∈ s.sends 100 (.pass both [1, 2] allOk) ∧
    x.job ≠ y.job ∧ h (.made a) ∧ h (.made b) ∧ a.id = x.job ∧ b.id = y.job ∧ a.kind.changes ∧ b.kind.changes ∧ x.cmd.Names 7 := by
  have h1 := CalmRun.start.step (cap := 100) (e := .request both (.addPeer 7 4)) trivial
    ⟨(by intro e he; cases he), (by intro _ _ _ _ h; cases h)⟩ rfl
  have h2 := h1.step (e := .commit 0) trivial trivial rfl
  have h3 := h2.step (e := .request both (.removePeer 8 3)) trivial
    ⟨(by intro e he; cases he), (by intro _ _ _ _ h; cases h)⟩ rfl
  have h4 := h3.step (e := .commit 0) trivial trivial rfl
  exact ⟨_, _, _, _, _, _, h4, List.Mem.head _, List.Mem.tail _ (List.Mem.head _), by decide,
    Or.inl (Or.inl (Or.inl (Or.inr (.request (List.Mem.head _))))), Or.inl (Or.inr (.request (List.Mem.head _))), rfl, rfl, trivial, trivial, Or.inl rfl⟩

open Example in
/-- A request that is refused. -/
example : ∃ s h j, Run 100 s h ∧ j ∈ s.jobs.jobs ∧ j.kind.changes ∧ 7 ∈ j.kind.regions ∧
    s.prepare 100 (.request both (.removePeer 7 3)) = [] := by
  have h1 := Run.start.step (cap := 100) (e := .request both (.addPeer 7 4)) trivial rfl
  have h2 := h1.step (e := .commit 0) trivial rfl
  exact ⟨_, _, _, h2, List.Mem.head _, trivial, List.Mem.head _, rfl⟩

open Example in
/-- Not so: that changes of a region exclude each other.  Two requests that come at about the same
time both find no job, both are granted, and their commands are sent at the same time. -/
theorem C87_together_false : ∃ (s : State) (h : Obs → Prop) (x y : Sent) (a b : Job), Run 100 s h ∧ s.pending = [] ∧
    x ∈ s.sends 100 (.pass both [1, 2] allOk) ∧ y ∈ s.sends 100 (.pass both [1, 2] allOk) ∧ x.job ≠ y.job ∧
    h (.made a) ∧ h (.made b) ∧ a.id = x.job ∧ b.id = y.job ∧ a.kind = .removePeer 7 2 [1, 3] ∧ b.kind = .removePeer 7 3 [1, 2] ∧
    x.cmd.Names 7 ∧ y.cmd.Names 7 := by
  have h1 := Run.start.step (cap := 100) (e := .request both (.removePeer 7 2)) trivial rfl
  have h2 := h1.step (e := .request both (.removePeer 7 3)) trivial rfl
  have h3 := h2.step (e := .commit 0) trivial rfl
  have h4 := h3.step (e := .commit 0) trivial rfl
  exact ⟨_, _, _, _, _, _, h4, rfl, List.Mem.head _, List.Mem.tail _ (List.Mem.head _), by decide,
    Or.inl (Or.inl (Or.inl (Or.inr (.request (List.Mem.head _))))), Or.inl (Or.inl (Or.inr (.request (List.Mem.head _)))),
    rfl, rfl, rfl, rfl, Or.inl rfl, Or.inl rfl⟩

open Example in
/-- Not so either, if the second change is asked for when no entry that makes a job is under way.
A job is cleaned while a pass is under way; then another change is asked for and granted; then the
entry of the pass puts the first job back. -/
theorem C87_stale_false : ∃ (s : State) (h : Obs → Prop) (x y : Sent) (a b : Job), Run 100 s h ∧ s.pending = [] ∧
    x ∈ s.sends 100 (.pass (view [1, 2, 3] true) [1, 2] allOk) ∧ y ∈ s.sends 100 (.pass (view [1, 2, 3] true) [1, 2] allOk) ∧ x.job ≠ y.job ∧
    h (.made a) ∧ h (.made b) ∧ a.id = x.job ∧ b.id = y.job ∧ a.kind = .addPeer 7 4 [1, 2, 3] ∧ b.kind = .removePeer 7 3 [1, 2] ∧
    x.cmd.Names 7 ∧ y.cmd.Names 7 := by
  have h1 := Run.start.step (cap := 100) (e := .request (view [1, 2, 3] false) (.addPeer 7 4)) trivial rfl
  have h2 := h1.step (e := .commit 0) trivial rfl
  have h3 := h2.step (fair_ok (view [1, 2, 3] false) [1] _) rfl
  have h4 := h3.step (e := .commit 0) trivial rfl
  have h5 := h4.step (fair_ok (view [1, 2, 3] true) [1] _) rfl
  have h6 := h5.step (e := .clean 1) trivial rfl
  have h7 := h6.step (e := .commit 1) trivial rfl
  have h8 := h7.step (e := .request (view [1, 2, 3] true) (.removePeer 7 3)) trivial rfl
  have h9 := h8.step (e := .commit 1) trivial rfl
  have h10 := h9.step (e := .commit 0) trivial rfl
  exact ⟨_, _, _, _, _, _, h10, rfl, List.Mem.head _, List.Mem.tail _ (List.Mem.head _), by decide,
    Or.inl (Or.inl (Or.inl (Or.inl (Or.inl (Or.inl (Or.inl (Or.inl (Or.inl (Or.inr (.request (List.Mem.head _))))))))))),
    Or.inl (Or.inl (Or.inr (.request (List.Mem.head _)))),
    rfl, rfl, rfl, rfl, Or.inl rfl, Or.inl rfl⟩

open Example in
/-- Not so: that no transfer of the leader is granted while the peers of the region are changed. -/
theorem C87_transfer_false : ∃ (s : State) (h : Obs → Prop) (x y : Sent) (a b : Job), Run 100 s h ∧ s.pending = [] ∧
    x ∈ s.sends 100 (.pass both [1, 2] allOk) ∧ y ∈ s.sends 100 (.pass both [1, 2] allOk) ∧ x.job ≠ y.job ∧
    h (.made a) ∧ h (.made b) ∧ a.id = x.job ∧ b.id = y.job ∧ a.kind = .removePeer 7 3 [1, 2] ∧ b.kind = .transfer 7 3 ∧
    x.cmd.type = .changePeer ∧ y.cmd.type = .transferLeader ∧ x.cmd.Names 7 ∧ y.cmd.Names 7 := by
  have h1 := Run.start.step (cap := 100) (e := .request both (.removePeer 7 3)) trivial rfl
  have h2 := h1.step (e := .commit 0) trivial rfl
  have h3 := h2.step (e := .request both (.transfer 7 3)) trivial rfl
  have h4 := h3.step (e := .commit 0) trivial rfl
  exact ⟨_, _, _, _, _, _, h4, rfl, List.Mem.head _, List.Mem.tail _ (List.Mem.head _), by decide,
    Or.inl (Or.inl (Or.inl (Or.inr (.request (List.Mem.head _))))), Or.inl (Or.inr (.request (List.Mem.head _))),
    rfl, rfl, rfl, rfl, rfl, rfl, Or.inl rfl, Or.inl rfl⟩

end Verif.Job
