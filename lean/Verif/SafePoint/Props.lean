import Verif.SafePoint.Stores
/-!
# C44: GC safe points

What clients, coordinators and stores may rely on about GC safe points, over every schedule of
requests, proposals, commits, applied entries, changes of leader, crashes, snapshots, polls and
garbage collections of the model in `Verif.SafePoint.Model`.
-/
namespace Verif.SafePoint

/-! ### What is applied does not go back -/

/-- Both points of the default tenant on the disk of any coordinator never decrease, whatever
happens: crashes, snapshot installs, changes of leader, requests with lower points. -/
theorem C44_applied (a b : List Ev) (n : Nat) (k : Kind) :
    ((run Sys.init a).nodes n).onDisk k ≤ ((run Sys.init (a ++ b)).nodes n).onDisk k := by
  have h1 := run_inv_mid a b
  have h2 := run_inv (a ++ b)
  have hg := run_grows (evs := b) h1 (fun n r hm => knows_asked (List.mem_append_right _ hm))
  rw [← run_append] at hg
  obtain ⟨⟨l, hl⟩, ha⟩ := hg
  unfold Node.onDisk
  rw [(h1.nodes n).disk, (h2.nodes n).disk, ← replay_append (l := l) (h1.nodes n).applied, ← hl]
  exact replay_ids_mono h2.log (ha n) k

/-- The points of a tenant on any coordinator never decrease, nor does the tenant vanish, as long as
nobody asks to create or drop it. -/
theorem C44_applied_tenant (a b : List Ev) (n : Nat) (t : Int) (x : Tenant)
    (hx : ((run Sys.init a).nodes n).tenants t = some x)
    (hs : (run Sys.init a).settled n t = true)
    (hb : ∀ e ∈ b, e.remakes t = false) :
    ∃ y, ((run Sys.init (a ++ b)).nodes n).tenants t = some y ∧ x.sp ≤ y.sp ∧ x.rl ≤ y.rl := by
  rw [run_append]
  exact run_tenant (run_inv_mid a b) (fun n r hm => knows_asked (List.mem_append_right _ hm))
    (settled_of hs) hb hx

/-- Two coordinators that have applied equally many entries hold the same points of the default
tenant and the same stop flag on disk. -/
theorem C44_replicas (evs : List Ev) (n m : Nat)
    (h : ((run Sys.init evs).nodes n).applied = ((run Sys.init evs).nodes m).applied) :
    (∀ k, ((run Sys.init evs).nodes n).onDisk k = ((run Sys.init evs).nodes m).onDisk k) ∧
    ((run Sys.init evs).nodes n).stop = ((run Sys.init evs).nodes m).stop := by
  have hi := run_inv evs
  refine ⟨fun k => ?_, ?_⟩
  · unfold Node.onDisk
    rw [(hi.nodes n).disk, (hi.nodes m).disk, h]
  · rw [(hi.nodes n).stop, (hi.nodes m).stop, h]

/-! ### What a coordinator answers -/

/-- The event makes coordinator `n` build anew the numbers it answers with. -/
def Ev.resets (n : Nat) : Ev → Bool
  | .lead m => m == n
  | .crash m => m == n
  | .install m _ => m == n
  | _ => false

theorem run_says {A} {n : Nat} {k : Kind} {evs : List Ev} : ∀ {s : Sys}, Inv A s →
    (∀ n r, Ev.request n r ∈ evs → Knows A r) → (∀ e ∈ evs, e.resets n = false) →
    (s.nodes n).says k ≤ ((run s evs).nodes n).says k := by
  induction evs with
  | nil => intro s _ _ _; exact Int.le_refl _
  | cons e evs ih =>
    intro s h hA he
    refine Int.le_trans ?_ (ih (s := step s e) (step_inv h (fun n r he => hA n r (by simp [he])))
      (fun n r hm => hA n r (by simp [hm])) (fun x hx => he x (by simp [hx])))
    have hm := step_moves h e n
    have hr := he e (by simp)
    generalize (step s e).nodes n = x at hm ⊢
    cases hm with
    | lift hv => exact raise_le (h.nodes n).temp hv.1 k
    | lead => simp [Ev.resets] at hr
    | crash => simp [Ev.resets] at hr
    | install _ _ _ => simp [Ev.resets] at hr
    | same => exact Int.le_refl _
    | begin _ _ => exact Int.le_refl _
    | tenant _ _ _ => exact Int.le_refl _
    | finish _ => exact Int.le_refl _
    | unlead => exact Int.le_refl _

/-- While it stays leader, the points of the default tenant a coordinator answers with never
decrease. -/
theorem C44_term (a b : List Ev) (n : Nat) (k : Kind) (hb : ∀ e ∈ b, e.resets n = false) :
    ((run Sys.init a).nodes n).says k ≤ ((run Sys.init (a ++ b)).nodes n).says k := by
  rw [run_append]
  exact run_says (run_inv_mid a b) (fun n r hm => knows_asked (List.mem_append_right _ hm)) hb

/-- A request that was answered with success, and that found the point of the default tenant lower
than it asked for, is in the log for good: from then on, in every continuation, every coordinator
that has applied its entry holds at least the point asked for on disk, and answers with at least
that point for as long as it then leads. -/
theorem C44_acked_partial (a b c : List Ev) (k : Nat) (th : Thread) (r : Upd) (kind : Kind) (x : Int)
    (hk : (run Sys.init a).threads[k]? = some th) (hok : th.status = .ok) (hr : th.req = .update r)
    (hx : th.seen kind = some x) (hlt : x < r.point kind) :
    ∃ i, th.entry = some i ∧ i < (run Sys.init a).log.length ∧
      ∀ n, i < ((run Sys.init (a ++ b)).nodes n).applied →
        r.point kind ≤ ((run Sys.init (a ++ b)).nodes n).onDisk kind ∧
        ((∀ e ∈ c, e.resets n = false) →
          r.point kind ≤ ((run Sys.init (a ++ b ++ [.lead n] ++ c)).nodes n).says kind) := by
  have h1 := run_inv_mid a (b ++ c)
  have hth := h1.thread hk
  have htodo := hth.over (Or.inr (Or.inr hok))
  have hmem : (kind, r.point kind) ∈ th.inc.ids := by
    rcases hth.def' r hr kind with hf | ⟨y, hy, hf⟩
    · rw [htodo] at hf; simp at hf
    · rw [hx] at hy
      cases hy
      rcases hf hlt with hf | hf
      · rw [htodo] at hf; simp at hf
      · exact hf
  obtain ⟨i, hi⟩ : ∃ i, th.entry = some i := by
    rcases he : th.entry with _ | i
    · have := hth.ok hok he
      simp only [Inc.isEmpty, Bool.and_eq_true, List.isEmpty_iff] at this
      rw [this.1.1] at hmem
      simp at hmem
    · exact ⟨i, rfl⟩
  have hlog := hth.entry i hi
  refine ⟨i, hi, (List.getElem?_eq_some_iff.1 hlog).1, ?_⟩
  intro n hn
  have hkb : ∀ n r, Ev.request n r ∈ b → Knows (Asked (a ++ (b ++ c))) r :=
    fun n r hm => knows_asked (List.mem_append_right _ (List.mem_append_left _ hm))
  have h2 : Inv (Asked (a ++ (b ++ c))) (run Sys.init (a ++ b)) := by
    rw [run_append]; exact run_inv_from h1 hkb
  obtain ⟨⟨l, hl⟩, _⟩ := run_grows (evs := b) h1 hkb
  rw [← run_append] at hl
  have hlog' : (run Sys.init (a ++ b)).log[i]? = some th.inc := by
    rw [hl, List.getElem?_append_left (List.getElem?_eq_some_iff.1 hlog).1]; exact hlog
  have hdisk : r.point kind ≤ ((run Sys.init (a ++ b)).nodes n).onDisk kind := by
    unfold Node.onDisk
    rw [(h2.nodes n).disk]
    refine Int.le_trans ?_ (replay_ids_mono h2.log hn kind)
    rw [replay_succ hlog']
    exact applyIds_ge (h2.log.replay i).ids (h2.log _ (List.mem_of_getElem? hlog')).ids hmem
  refine ⟨hdisk, fun hc => ?_⟩
  rw [run_append, run_append (a := a ++ b)]
  refine Int.le_trans ?_ (run_says (A := Asked (a ++ (b ++ c))) (evs := c) ?_ ?_ hc)
  · refine Int.le_trans hdisk ?_
    show ((run Sys.init (a ++ b)).nodes n).onDisk kind ≤
      ((step (run Sys.init (a ++ b)) (.lead n)).nodes n).says kind
    simp only [step, doLead, Sys.setNode, put, if_true, Node.says, Node.onDisk]
    have hn2 := h2.nodes n
    rcases hp : ((run Sys.init (a ++ b)).nodes n).phase with _ | p
    · rw [hn2.ids hp]; exact Int.le_refl _
    · obtain ⟨e, he, h3, _⟩ := hn2.mid p hp
      rw [h3]
      exact applyIds_le (hn2.okDisk h2.log) (h2.log e (List.mem_of_getElem? he)).ids kind
  · exact step_inv (e := .lead n) h2 (fun _ _ he => by cases he)
  · exact fun n r hm => knows_asked (List.mem_append_right _ (List.mem_append_right _ hm))

/-! ### Tenants -/

theorem applyTs_low {l} {t v : Int} : ∀ {m : Int → Option Tenant}, (∀ i ∈ l, TInc.remakes t i = false) →
    (∀ b, m t = some b → v ≤ b.sp) → ∀ b, applyTs m l t = some b → v ≤ b.sp := by
  induction l with
  | nil => intro m _ h; exact h
  | cons i l ih =>
    intro m hl h
    refine ih (m := applyTenant m i) (fun j hj => hl j (by simp [hj])) ?_
    intro b hb
    rw [applyTenant_eq] at hb
    by_cases hid : t = i.id
    · rw [← hid, put_same] at hb
      rcases hm : m t with _ | a
      · rw [hm] at hb
        have hrem := hl i (by simp)
        cases i with
        | create id n => simp [TInc.remakes, TInc.id] at hrem hid; exact absurd hid.symm hrem
        | delete id => simp [TInc.remakes, TInc.id] at hrem hid; exact absurd hid.symm hrem
        | update id x => simp [act] at hb
      · obtain ⟨c, hc, h1, _⟩ := act_mono (a := a) (hl i (by simp)) hid.symm
        rw [hm, hc] at hb
        cases hb
        exact Int.le_trans (h a hm) h1
    · rw [put_other _ _ hid] at hb
      exact h b hb

/-- A request that was answered with success, and that found the GC point of a tenant lower than it
asked for, is in the log for good: from then on every coordinator that has applied its entry and has
the tenant holds at least that point, provided the tenant is not created or dropped meanwhile and
nobody ever asks for a resolve-lock point of the tenant. -/
theorem C44_acked_tenant_partial (a b : List Ev) (k : Nat) (th : Thread) (r : Upd) (t v x : Int)
    (hk : (run Sys.init a).threads[k]? = some th) (hok : th.status = .ok) (hr : th.req = .update r)
    (ht : t ≠ 0) (hv : (t, v) ∈ r.tsp) (hx : th.seenT t = some x) (hlt : x < v)
    (hrl : ∀ n r', Ev.request n (.update r') ∈ a ++ b → ∀ w, (t, w) ∉ r'.trl) :
    ∃ i, th.entry = some i ∧ i < (run Sys.init a).log.length ∧
      ∀ n y, (((run Sys.init (a ++ b)).log.drop i).all
          (fun e => e.tenants.all (fun j => !j.remakes t)) = true) →
        i < ((run Sys.init (a ++ b)).nodes n).applied →
        ((run Sys.init (a ++ b)).nodes n).tenants t = some y → v ≤ y.sp := by
  have h1 := run_inv_mid a b
  have h2 := run_inv (a ++ b)
  have hth := h1.thread hk
  have htodo := hth.over (Or.inr (Or.inr hok))
  obtain ⟨u, hu, huv⟩ : ∃ y, TInc.update t y ∈ th.inc.tenants ∧ y.sp = v := by
    rcases hth.tsp r hr t v hv ht with hf | ⟨y, hy, hf⟩
    · rw [htodo] at hf; simp at hf
    · rw [hx] at hy
      cases hy
      exact hf hlt
  obtain ⟨i, hi⟩ : ∃ i, th.entry = some i := by
    rcases he : th.entry with _ | i
    · have := hth.ok hok he
      simp only [Inc.isEmpty, Bool.and_eq_true, List.isEmpty_iff] at this
      rw [this.1.2] at hu
      simp at hu
    · exact ⟨i, rfl⟩
  have hlog := hth.entry i hi
  refine ⟨i, hi, (List.getElem?_eq_some_iff.1 hlog).1, ?_⟩
  intro n y hkeep hn hy
  obtain ⟨⟨l, hl⟩, _⟩ := run_grows (evs := b) h1
    (fun n r hm => knows_asked (List.mem_append_right _ hm))
  rw [← run_append] at hl
  have hlog' : (run Sys.init (a ++ b)).log[i]? = some th.inc := by
    rw [hl, List.getElem?_append_left (List.getElem?_eq_some_iff.1 hlog).1]; exact hlog
  generalize hS : run Sys.init (a ++ b) = S at h2 hlog' hkeep hn hy
  have hkeeps : Keeps S.log i t := by
    intro j e hj he z hz
    simp only [List.all_eq_true, Bool.not_eq_true'] at hkeep
    refine hkeep e ?_ z hz
    refine List.mem_of_getElem? (i := j - i) ?_
    rw [List.getElem?_drop, Nat.add_sub_cancel' hj]
    exact he
  have hnorl : ∀ w, ¬ Asked (a ++ b) .rl t w := by
    rintro w ⟨m, r', hm, hw⟩
    rw [if_neg ht] at hw
    exact hrl m r' hm w hw
  have hinc := h2.log _ (List.mem_of_getElem? hlog')
  have hu0 : u.rl = 0 := by
    rcases (hinc.tenants t u hu).2 with h | h
    · exact h
    · exact absurd h.2 (hnorl _)
  rcases (hinc.tenants t u hu).1 with hz | ⟨hupos, _⟩
  · rcases ((h2.nodes n).okTs h2.log t y hy).1 with h | h <;> omega
  -- the entry itself
  have hbase : ∀ b, (replay S.log (i + 1)).tenants t = some b → v ≤ b.sp := by
    intro b' hb'
    rw [replay_succ hlog'] at hb'
    have := applyTs_mem (m := (replay S.log i).tenants) hinc.nodup hu
    simp only [TInc.id] at this
    simp only [Rep.apply] at hb'
    rw [this] at hb'
    simp only [act] at hb'
    rcases hc : (replay S.log i).tenants t with _ | cur
    · rw [hc] at hb'; cases hb'
    · rw [hc] at hb'
      have hcrl : cur.rl = 0 := by
        rcases ((h2.log.replay i).tenants t cur hc).2 with h | h
        · exact h
        · exact absurd h.2 (hnorl _)
      simp only [applyUpdate, hu0] at hb'
      grind
  have hmono : ∀ j, i + 1 ≤ j → ∀ b, (replay S.log j).tenants t = some b → v ≤ b.sp := by
    intro j hj
    induction hj with
    | refl => exact hbase
    | @step j hj ih =>
      rcases he : S.log[j]? with _ | e
      · rw [Nat.succ_eq_add_one, replay_over (List.getElem?_eq_none_iff.1 he)]; exact ih
      · rw [Nat.succ_eq_add_one, replay_succ he]
        exact applyTs_low (hkeeps j e (Nat.le_of_succ_le hj) he) ih
  obtain ⟨q, _, _, hq⟩ := (h2.nodes n).tenants
  rw [hq] at hy
  refine applyTs_low ?_ (hmono _ hn) y hy
  intro z hz
  have hz := List.mem_of_mem_take hz
  unfold nextTs at hz
  split at hz
  · rename_i e he
    exact hkeeps _ e (by omega) he z hz
  · simp at hz

/-! ### Where points come from -/

/-- Every point a coordinator holds on disk or answers with, every point a store holds, and every
point a garbage collection uses was asked for by some client, for that tenant. -/
theorem C44_origin (evs : List Ev) :
    (∀ n k, ((run Sys.init evs).nodes n).onDisk k = 0 ∨
      Asked evs k 0 (((run Sys.init evs).nodes n).onDisk k)) ∧
    (∀ n k, ((run Sys.init evs).nodes n).says k = 0 ∨
      Asked evs k 0 (((run Sys.init evs).nodes n).says k)) ∧
    (∀ n t x, ((run Sys.init evs).nodes n).tenants t = some x →
      (x.sp = 0 ∨ Asked evs .gc t x.sp) ∧ (x.rl = 0 ∨ Asked evs .rl t x.rl)) ∧
    (∀ i t, (((run Sys.init evs).stores i).mgr.get t).ts = 0 ∨
      Asked evs .gc t (((run Sys.init evs).stores i).mgr.get t).ts) ∧
    (∀ i t v, (i, t, v) ∈ (run Sys.init evs).runs → 0 < v ∧ Asked evs .gc t v) := by
  have h := run_inv evs
  refine ⟨?_, ?_, ?_, ?_, h.runs⟩
  · intro n k
    unfold Node.onDisk
    rcases hd : ((run Sys.init evs).nodes n).disk k with _ | v
    · exact Or.inl rfl
    · exact Or.inr ((h.nodes n).okDisk h.log k v hd).2
  · intro n k
    unfold Node.says
    rcases hd : ((run Sys.init evs).nodes n).temp k with _ | v
    · exact Or.inl rfl
    · exact Or.inr ((h.nodes n).temp k v hd).2
  · intro n t x hx
    have := (h.nodes n).okTs h.log t x hx
    exact ⟨this.1.imp id (·.2), this.2.imp id (·.2)⟩
  · intro i t
    unfold Mgr.get
    rcases ha : ((run Sys.init evs).stores i).mgr.active t with _ | e
    · rcases hl : ((run Sys.init evs).stores i).mgr.all t with _ | e
      · exact Or.inl rfl
      · exact ((h.stores i).all t e hl).imp id (·.2)
    · exact ((h.stores i).active t e ha).imp id (·.2)

/-- A garbage collection of a tenant other than the default one only uses a point that raft has
committed. -/
theorem C44_gc_committed_partial (evs : List Ev) (i : Nat) (t v : Int)
    (h : (i, t, v) ∈ (run Sys.init evs).runs) (ht : t ≠ 0) :
    ∃ e ∈ (run Sys.init evs).log, ∃ y, TInc.update t y ∈ e.tenants ∧ y.sp = v :=
  (run_committed (A := Asked evs) init_inv (fun _ _ h => knows_asked h) init_committed).runs i t v h ht

/-! ### Stores -/

/-- A store takes over what it is told: for every tenant in the answer it received, it holds exactly
that point and that flag. -/
theorem C44_store_follows (evs : List Ev) (i : Nat) (r : Served) (t v : Int)
    (hr : ((run Sys.init evs).stores i).poll = some r) (hv : r.sp t = some v) :
    ((step (run Sys.init evs) (.recv i)).stores i).mgr.get t = ⟨r.stop, v⟩ := by
  have ha := run_apart (evs := evs) init_apart i
  simp only [step, doRecv, hr, Sys.setStore, put, if_true, Mgr.get, Mgr.set, hv]
  rw [set1_told (ha t)]
  cases r.stop <;> rfl

/-- Once a store has received an answer with the stop flag, it starts no garbage collection for a
tenant of that answer until the next answer arrives, unless it received the answer in the short time
between picking the tenants to collect and clearing their flags, with that tenant among them. -/
theorem C44_stop_partial (a b : List Ev) (i : Nat) (r : Served) (t v : Int)
    (hr : ((run Sys.init a).stores i).poll = some r) (hv : r.sp t = some v) (hs : r.stop = true)
    (hg : ∀ g, ((run Sys.init a).stores i).gc = some (g, false) → g t = none)
    (hb : ∀ e ∈ b, e ≠ .recv i) :
    (run Sys.init (a ++ [.recv i] ++ b)).runs.filter (fun x => x.1 == i && x.2.1 == t) =
      (run Sys.init a).runs.filter (fun x => x.1 == i && x.2.1 == t) := by
  have ha := run_apart (evs := a) init_apart i
  rw [run_append, run_append]
  have hst : Stopped ((run (run Sys.init a) [.recv i]).stores i) t := by
    show Stopped ((step (run Sys.init a) (.recv i)).stores i) t
    simp only [step, doRecv, hr, Sys.setStore, put, if_true]
    have e : Mgr.set1 (((run Sys.init a).stores i).mgr.active t)
        (((run Sys.init a).stores i).mgr.all t) r.stop (r.sp t) = (none, some ⟨true, v⟩) := by
      rw [hv, set1_told (ha t), hs]
      rfl
    refine ⟨?_, ⟨⟨true, v⟩, ?_, rfl⟩, hg⟩
    · simp only [Mgr.set, e]
    · simp only [Mgr.set, e]
  rw [run_stopped hst hb]
  have : (run (run Sys.init a) [.recv i]).runs = (run Sys.init a).runs := by
    show (step (run Sys.init a) (.recv i)).runs = _
    simp only [step, doRecv, hr]
    rfl
  rw [this]

/-! ### Concrete runs -/

/-- `k` tasks of request `j`. -/
def evals (j k : Nat) : List Ev := List.replicate k (.eval j)

/-- Coordinator `n` applies an entry with `k` tenant increments. -/
def applies (n k : Nat) : List Ev := [.begin n] ++ List.replicate k (.tenant n) ++ [.finish n]

/-- A request for a GC point of the default tenant. -/
def asks (n : Nat) (sp : Int) : Ev := .request n (.update ⟨sp, .none, 0, [], []⟩)

/-- Coordinator 0 leads and raises the point to 20; coordinator 1 follows. -/
def ex1 : List Ev :=
  [.lead 0, asks 0 20] ++ evals 0 4 ++ [.propose 0, .commit 0] ++ applies 0 0 ++ [.answer 0] ++ applies 1 0

/-- Then coordinator 0 crashes, 1 leads and raises it to 30, 0 installs a snapshot. -/
def ex2 : List Ev :=
  [.crash 0, .lead 1, asks 1 30] ++ evals 1 4 ++ [.propose 1, .commit 1] ++ applies 1 0 ++
    [.answer 1, .save 1, .install 0 0]

/-- Tenant 7 is created and its GC point raised to 20 by coordinator 0. -/
def ex3 : List Ev :=
  [.lead 0, .request 0 (.create 7 1)] ++ evals 0 1 ++ [.propose 0, .commit 0] ++ applies 0 1 ++
    [.answer 0, .request 0 (.update ⟨0, .none, 0, [(7, 20)], []⟩)] ++ evals 1 4 ++
    [.propose 1, .commit 1] ++ applies 0 1 ++ [.answer 1]

/-- Store 5 polls coordinator 0 and collects garbage of the default tenant and of tenant 7. -/
def ex4 : List Ev :=
  [.poll 5 0, .recv 5, .gcBegin 5 7, .gcResume 5, .gcRun 5 7, .gcRun 5 0, .gcEnd 5]

/-- A request to stop garbage collection. -/
def stops (n : Nat) : Ev := .request n (.update ⟨0, .stop, 0, [], []⟩)

example : ((run Sys.init ex1).nodes 0).onDisk .gc = 20 ∧ ((run Sys.init ex1).nodes 1).onDisk .gc = 20 ∧
    ((run Sys.init (ex1 ++ ex2)).nodes 0).onDisk .gc = 30 ∧
    ((run Sys.init ex1).nodes 0).applied = ((run Sys.init ex1).nodes 1).applied := by
  refine ⟨?_, ?_, ?_, ?_⟩ <;> decide +kernel

/-- A case of `C44_term`: the coordinator answers 20 and then, the second request under way, 30. -/
example : (∀ e ∈ [asks 0 30] ++ evals 1 4, Ev.resets 0 e = false) ∧
    ((run Sys.init ex1).nodes 0).says .gc = 20 ∧
    ((run Sys.init (ex1 ++ ([asks 0 30] ++ evals 1 4))).nodes 0).says .gc = 30 := by
  refine ⟨?_, ?_, ?_⟩ <;> decide +kernel

/-- A case of `C44_acked_partial`. -/
example : ∃ th, (run Sys.init ex1).threads[0]? = some th ∧ th.status = .ok ∧
    th.req = .update ⟨20, .none, 0, [], []⟩ ∧ th.seen .gc = some 0 ∧
    th.entry = some 0 ∧ 0 < ((run Sys.init (ex1 ++ ex2)).nodes 0).applied := by
  refine ⟨_, rfl, ?_, ?_, ?_, ?_, ?_⟩ <;> decide +kernel

/-- A case of `C44_applied_tenant` and of `C44_acked_tenant_partial`. -/
example : ((run Sys.init ex3).nodes 0).tenants 7 = some ⟨1, 20, 0⟩ ∧
    (run Sys.init ex3).settled 0 7 = true ∧
    ∃ th, (run Sys.init ex3).threads[1]? = some th ∧ th.status = .ok ∧
      th.req = .update ⟨0, .none, 0, [(7, 20)], []⟩ ∧ th.seenT 7 = some 0 ∧ th.entry = some 1 ∧
      ((run Sys.init ex3).log.drop 1).all (fun e => e.tenants.all (fun j => !j.remakes 7)) = true ∧
      1 < ((run Sys.init ex3).nodes 0).applied := by
  refine ⟨?_, ?_, _, rfl, ?_, ?_, ?_, ?_, ?_, ?_⟩ <;> decide +kernel

/-- A case of `C44_gc_committed_partial` and `C44_origin`. -/
example : (run Sys.init (ex3 ++ ex4)).runs = [(5, 7, 20)] := by decide +kernel

/-- A case of `C44_store_follows`. -/
example : ∃ r, ((run Sys.init (ex3 ++ [.poll 5 0])).stores 5).poll = some r ∧ r.sp 7 = some 20 ∧
    r.sp 0 = some 0 ∧ r.stop = false := by
  refine ⟨_, rfl, ?_, ?_, ?_⟩ <;> decide +kernel

/-- A case of `C44_stop_partial`, in which garbage was collected before the stop and a collection is
under way. -/
def ex5 : List Ev :=
  ex3 ++ [.poll 5 0, .recv 5, .gcBegin 5 7, .gcResume 5, .gcRun 5 7, stops 0] ++ evals 2 3 ++
    [.propose 2, .commit 2] ++ applies 0 0 ++ [.answer 2, .poll 5 0]

example : ∃ r, ((run Sys.init ex5).stores 5).poll = some r ∧ r.sp 7 = some 20 ∧ r.stop = true ∧
    (run Sys.init ex5).runs = [(5, 7, 20)] ∧
    (run Sys.init (ex5 ++ [.recv 5] ++ [.gcRun 5 7])).runs = [(5, 7, 20)] ∧
    (run Sys.init (ex5 ++ [.gcRun 5 7])).runs = [(5, 7, 20), (5, 7, 20)] := by
  refine ⟨_, rfl, ?_, ?_, ?_, ?_, ?_⟩ <;> decide +kernel

/-! ### What does not hold -/

/-- Two requests: the second finds the point raised by the first, is answered with success without
anything being written, and then the first is lost with the leader. -/
def bad1 : List Ev :=
  [.lead 0, asks 0 20] ++ evals 0 4 ++ [.propose 0, asks 0 15] ++ evals 1 3 ++ [.propose 1, .lose 0, .unlead 0, .lead 1]

/-- A request answered with success may be forgotten: the new leader, up to date with the log,
answers with a lower point.  (So `C44_acked_partial` needs the point found to be lower than the one
asked for.) -/
theorem C44_acked_false : ∃ (evs : List Ev) (k : Nat) (th : Thread) (r : Upd) (n : Nat),
    (run Sys.init evs).threads[k]? = some th ∧ th.status = .ok ∧ th.req = .update r ∧
    ((run Sys.init evs).nodes n).leader = true ∧
    ((run Sys.init evs).nodes n).applied = (run Sys.init evs).log.length ∧
    ((run Sys.init evs).nodes n).says .gc < r.sp := by
  refine ⟨bad1, 1, _, ⟨15, .none, 0, [], []⟩, 1, rfl, ?_, ?_, ?_, ?_, ?_⟩ <;> decide +kernel

/-- The same run with a store: it collects garbage at point 20, which is nowhere in the log, and is
told 0 afterwards. -/
def bad2 : List Ev :=
  [.lead 0, asks 0 20] ++ evals 0 4 ++ [.poll 5 0, .recv 5, .gcBegin 5 0, .gcResume 5, .gcRun 5 0, .gcEnd 5, .propose 0, .lose 0, .unlead 0, .lead 1]

/-- Garbage of the default tenant may be collected at a point that is never committed and whose
request is answered with an error; and the point a store holds may go back when the leader changes. -/
theorem C44_store_regress_false : ∃ a b : List Ev,
    (5, 0, 20) ∈ (run Sys.init (a ++ b)).runs ∧ (run Sys.init (a ++ b)).log = [] ∧
    (∀ th ∈ (run Sys.init (a ++ b)).threads, th.status = .err) ∧
    (((run Sys.init (a ++ b)).stores 5).mgr.get 0).ts < (((run Sys.init a).stores 5).mgr.get 0).ts := by
  refine ⟨bad2, [.poll 5 1, .recv 5], ?_, ?_, ?_, ?_⟩ <;> decide +kernel

/-- Tenant 7 with resolve-lock point 10; then two requests evaluated side by side: GC point 20, and
resolve-lock point 30.  The second is committed first. -/
def bad3 : List Ev :=
  [.lead 0, .request 0 (.create 7 1)] ++ evals 0 1 ++ [.propose 0, .commit 0] ++ applies 0 1 ++
  [.answer 0, .request 0 (.update ⟨0, .none, 0, [], [(7, 10)]⟩)] ++ evals 1 4 ++ [.propose 1, .commit 1] ++
  applies 0 1 ++ [.answer 1, .request 0 (.update ⟨0, .none, 0, [(7, 20)], []⟩),
    .request 0 (.update ⟨0, .none, 0, [], [(7, 30)]⟩)] ++ evals 2 4 ++ evals 3 4 ++
  [.propose 2, .propose 3, .commit 3, .commit 2] ++ applies 0 1 ++ applies 0 1 ++ [.answer 2, .answer 3]

/-- A GC point of a tenant answered with success may be dropped, if someone else raised the
resolve-lock point of the tenant meanwhile. -/
theorem C44_acked_tenant_false : ∃ (evs : List Ev) (k : Nat) (th : Thread) (r : Upd) (x : Tenant),
    (run Sys.init evs).threads[k]? = some th ∧ th.status = .ok ∧ th.req = .update r ∧
    (7, 20) ∈ r.tsp ∧ (run Sys.init evs).settled 0 7 = true ∧
    ((run Sys.init evs).nodes 0).applied = (run Sys.init evs).log.length ∧
    ((run Sys.init evs).nodes 0).tenants 7 = some x ∧ x.sp < 20 := by
  refine ⟨bad3, 2, _, ⟨0, .none, 0, [(7, 20)], []⟩, ⟨1, 0, 30⟩, rfl, ?_, ?_, ?_, ?_, ?_, ?_, ?_⟩ <;>
    decide +kernel

/-- Tenant 7 is created twice side by side; both requests find it absent.  Between the two entries
its GC point is raised to 20. -/
def bad4 : List Ev :=
  [.lead 0, .request 0 (.create 7 1), .request 0 (.create 7 1)] ++ evals 0 1 ++ evals 1 1 ++
  [.propose 0, .propose 1, .commit 0] ++ applies 0 1 ++
  [.answer 0, .request 0 (.update ⟨0, .none, 0, [(7, 20)], []⟩)] ++ evals 2 4 ++ [.propose 2, .commit 2] ++
  applies 0 1 ++ [.answer 2]

/-- The GC point of a tenant goes back to 0 when a second creation of it is applied: both creations
are answered with success. -/
theorem C44_tenant_reset_false : ∃ (a b : List Ev) (x y : Tenant),
    (∀ e ∈ b, e.remakes 7 = false) ∧
    (∀ th ∈ (run Sys.init (a ++ b)).threads, th.status = .ok) ∧
    ((run Sys.init a).nodes 0).tenants 7 = some x ∧
    ((run Sys.init (a ++ b)).nodes 0).tenants 7 = some y ∧ y.sp < x.sp := by
  refine ⟨bad4, [.commit 1] ++ applies 0 1 ++ [.answer 1], ⟨1, 20, 0⟩, ⟨1, 0, 0⟩, ?_, ?_, ?_, ?_, ?_⟩ <;>
    decide +kernel

/-- Tenant 7, named 1; a request raises its GC point while another renames it to 2. -/
def bad5 : List Ev :=
  [.lead 0, .request 0 (.create 7 1)] ++ evals 0 1 ++ [.propose 0, .commit 0] ++ applies 0 1 ++
  [.answer 0, .request 0 (.update ⟨0, .none, 0, [(7, 20)], []⟩), .request 0 (.rename 7 2)] ++ evals 1 4 ++
  evals 2 1 ++ [.propose 1, .propose 2, .commit 2] ++ applies 0 1 ++ [.answer 2]

/-- A rename answered with success is undone by a safe-point update that read the tenant before. -/
theorem C44_rename_false : ∃ (a b : List Ev) (th : Thread) (x y : Tenant),
    (run Sys.init a).threads[2]? = some th ∧ th.status = .ok ∧ th.req = .rename 7 2 ∧
    ((run Sys.init a).nodes 0).tenants 7 = some x ∧ x.name = 2 ∧
    (∀ n r, Ev.request n r ∉ b) ∧
    ((run Sys.init (a ++ b)).nodes 0).tenants 7 = some y ∧ y.name = 1 := by
  refine ⟨bad5, [.commit 1] ++ applies 0 1, _, ⟨2, 0, 0⟩, ⟨1, 20, 0⟩, rfl, ?_, ?_, ?_, ?_, ?_, ?_, ?_⟩
  case refine_5 => intro n r h; simp [applies] at h
  all_goals decide +kernel

/-- A store picks the default tenant, at point 20, for collection; then it is told to stop; then it
clears the flags of the tenants it picked. -/
def bad6 : List Ev :=
  ex1 ++ [.poll 5 0, .recv 5, .gcBegin 5 0, stops 0] ++ evals 1 3 ++ [.propose 1, .commit 1] ++
  applies 0 0 ++ [.answer 1, .poll 5 0]

/-- A store that has received the stop flag may still start a garbage collection. -/
theorem C44_stop_false : ∃ (a b : List Ev) (r : Served),
    ((run Sys.init a).stores 5).poll = some r ∧ r.stop = true ∧ r.sp 0 = some 20 ∧
    (∀ e ∈ b, e ≠ .recv 5) ∧ (run Sys.init a).runs = [] ∧
    (run Sys.init (a ++ [.recv 5] ++ b)).runs = [(5, 0, 20)] := by
  refine ⟨bad6, [.gcResume 5, .gcRun 5 0], _, rfl, ?_, ?_, ?_, ?_, ?_⟩ <;> decide +kernel

/-- The field of the response meant for the new GC point holds the new resolve-lock point: here a
request for GC point 20 was answered with success and 0. -/
theorem C44_response_false : ∃ (evs : List Ev) (th : Thread),
    (run Sys.init evs).threads[0]? = some th ∧ th.status = .ok ∧
    ((run Sys.init evs).nodes 0).onDisk .gc = 20 ∧ th.newSp = 20 ∧ th.answerSp = 0 := by
  refine ⟨ex1, _, rfl, ?_, ?_, ?_, ?_⟩ <;> decide +kernel

end Verif.SafePoint
