import Verif.Job.Like

/-!
# Jobs of the coordinator: what entries keep true (lemmas)
-/

namespace Verif.Job

/-- A command with this id of this job was accepted. -/
def TookId (h : Obs → Prop) (job n : Nat) : Prop := ∃ x, h (.took x) ∧ x.job = job ∧ x.cmd.id = n

/-- Operations said to be successful. -/
def TaskSucc (h : Obs → Prop) (job : Nat) (t : Task) : Prop :=
  ∀ o ∈ t.ops, o.success = true →
    ∃ n, (∃ c ∈ t.cmds, c.id = n) ∧ TookId h job n ∧ ∀ c ∈ o.cmds, c.id = n

/-- A job that is what is left of one that was made. -/
structure Ok (h : Obs → Prop) (j0 j : Job) : Prop where
  made : h (.made j0)
  like : Like j0 j
  succ : ∀ (i : Nat) t, j.tasks[i]? = some t → TaskSucc h j.id t
  le : j.next ≤ j.tasks.length
  done : ∀ m, m < j.next → Done h j0 m

/-- A command that was sent. -/
def SentOk (h : Obs → Prop) (x : Sent) : Prop :=
  ∃ j0, h (.made j0) ∧ j0.id = x.job ∧ ∃ t0, j0.tasks[x.step]? = some t0 ∧
    (∃ o0 ∈ t0.ops, ∃ c0 ∈ o0.cmds, For x o0 c0) ∧
    (∃ v, h (.looked j0.id x.step v) ∧ ∀ o ∈ t0.ops, o.check.Holds v) ∧
    ∀ m, m < x.step → Done h j0 m

/-- What was seen is consistent. -/
structure Hist (h : Obs → Prop) : Prop where
  uniq : ∀ a b, h (.made a) → h (.made b) → a.id = b.id → a = b
  sound : ∀ a, h (.made a) → Sound a
  sent : ∀ x, h (.sent x) → SentOk h x
  took : ∀ x, h (.took x) → h (.sent x)

/-- All steps are done. -/
def Through (h : Obs → Prop) (id : Nat) : Prop :=
  ∃ j0, h (.made j0) ∧ j0.id = id ∧ ∀ m, m < j0.tasks.length → Done h j0 m

/-- Somebody asked for it to be cleaned. -/
def Cleaned (h : Obs → Prop) (id : Nat) : Prop := ∃ n, h (.cleaned n) ∧ (n = 0 ∨ n = id)

/-- An increment that may be applied. -/
def IncOk (h : Obs → Prop) : Inc → Prop
  | .create j => h (.made j)
  | .update j => ∃ j0, Ok h j0 j
  | .delete id => Through h id ∨ Cleaned h id
  | .status id n .done => TookId h id n
  | .status id n .fail => ∃ x, h (.sent x) ∧ x.job = id ∧ x.cmd.id = n
  | .move id n _ => ∃ x, h (.sent x) ∧ x.job = id ∧ x.cmd.id = n ∧ x.cmd.type.leader = true
  | .drop _ => True

/-- The jobs in the tables. -/
structure Tab (h : Obs → Prop) (s : Jobs) : Prop where
  ids : (s.jobs.map Job.id).Nodup
  ok : ∀ j ∈ s.jobs, ∃ j0, Ok h j0 j
  arch : ∀ j, (j, true) ∈ s.archive → (∃ j0, h (.made j0) ∧ Like j0 j) ∧ (Through h j.id ∨ Cleaned h j.id)

/-! ## More is seen -/

theorem Done.mono {h h' : Obs → Prop} (hh : ∀ o, h o → h' o) {j : Job} {m : Nat} (hd : Done h j m) : Done h' j m := by
  obtain ⟨t, ht, ⟨v, hv, hc⟩, ha⟩ := hd
  refine ⟨t, ht, ⟨v, hh _ hv, hc⟩, fun o ho c hc => ?_⟩
  obtain ⟨x, hx, hr⟩ := ha o ho c hc
  exact ⟨x, hh _ hx, hr⟩

theorem TookId.mono {h h' : Obs → Prop} (hh : ∀ o, h o → h' o) {a b : Nat} : TookId h a b → TookId h' a b :=
  fun ⟨x, hx, hr⟩ => ⟨x, hh _ hx, hr⟩

theorem Ok.mono {h h' : Obs → Prop} (hh : ∀ o, h o → h' o) {j0 j : Job} (ho : Ok h j0 j) : Ok h' j0 j :=
  ⟨hh _ ho.made, ho.like, fun i t ht o hm hs => by
    obtain ⟨n, h1, h2, h3⟩ := ho.succ i t ht o hm hs
    exact ⟨n, h1, h2.mono hh, h3⟩, ho.le, fun m hm => (ho.done m hm).mono hh⟩

theorem SentOk.mono {h h' : Obs → Prop} (hh : ∀ o, h o → h' o) {x : Sent} (hs : SentOk h x) : SentOk h' x := by
  obtain ⟨j0, h1, h2, t0, h3, h4, ⟨v, hv, h5⟩, h6⟩ := hs
  exact ⟨j0, hh _ h1, h2, t0, h3, h4, ⟨v, hh _ hv, h5⟩, fun m hm => (h6 m hm).mono hh⟩

theorem Through.mono {h h' : Obs → Prop} (hh : ∀ o, h o → h' o) {id : Nat} : Through h id → Through h' id :=
  fun ⟨j0, h1, h2, h3⟩ => ⟨j0, hh _ h1, h2, fun m hm => (h3 m hm).mono hh⟩

theorem Cleaned.mono {h h' : Obs → Prop} (hh : ∀ o, h o → h' o) {id : Nat} : Cleaned h id → Cleaned h' id :=
  fun ⟨n, h1, h2⟩ => ⟨n, hh _ h1, h2⟩

theorem IncOk.mono {h h' : Obs → Prop} (hh : ∀ o, h o → h' o) {i : Inc} (hi : IncOk h i) : IncOk h' i := by
  cases i with
  | create j => exact hh _ hi
  | update j => obtain ⟨j0, h0⟩ := hi; exact ⟨j0, h0.mono hh⟩
  | delete id => exact hi.imp (Through.mono hh) (Cleaned.mono hh)
  | status id n st =>
    cases st with
    | done => exact TookId.mono hh hi
    | fail => obtain ⟨x, hx, hr⟩ := hi; exact ⟨x, hh _ hx, hr⟩
  | move id n s => obtain ⟨x, hx, hr⟩ := hi; exact ⟨x, hh _ hx, hr⟩
  | drop r => trivial

theorem Tab.mono {h h' : Obs → Prop} (hh : ∀ o, h o → h' o) {s : Jobs} (ht : Tab h s) : Tab h' s :=
  ⟨ht.ids, fun j hj => (ht.ok j hj).imp (fun _ ho => ho.mono hh),
   fun j hj => ⟨(ht.arch j hj).1.imp (fun _ h0 => ⟨hh _ h0.1, h0.2⟩), (ht.arch j hj).2.imp (Through.mono hh) (Cleaned.mono hh)⟩⟩

/-! ## Finding the command -/

/-- A command sent for a job, found by its id. -/
theorem Hist.find {h : Obs → Prop} (hh : Hist h) {j0 j : Job} (ho : Ok h j0 j) {x : Sent} (hx : h (.sent x)) (hj : x.job = j.id)
    {i : Nat} {t t0 : Task} (ht : j.tasks[i]? = some t) (ht0 : j0.tasks[i]? = some t0) {c : Cmd} (hc : c ∈ t.cmds)
    (hid : x.cmd.id = c.id) :
    x.step = i ∧ x.cmd.plain = c.plain ∧ (∃ o0 ∈ t0.ops, ∃ c0 ∈ o0.cmds, c0.id = c.id ∧ For x o0 c0) ∧ (∃ v, h (.looked j0.id i v) ∧ ∀ o ∈ t0.ops, o.check.Holds v) ∧
      ∀ m, m < i → Done h j0 m := by
  obtain ⟨a, ha, haj, u0, hu0, ⟨o1, ho1, c1, hco1, he1, hst⟩, hv, hd⟩ := hh.sent x hx
  have hc1 : c1 ∈ u0.cmds := List.mem_flatMap.mpr ⟨o1, ho1, hco1⟩
  have hab : a = j0 := hh.uniq a j0 ha ho.made (by rw [haj, hj, ho.like.id])
  subst hab
  obtain ⟨c2, hc2, he2⟩ := (ho.like.task i t0 t ht0 ht).mem hc
  have hcc : c1.id = c2.id := by rw [← plain_id he1, plain_id he2]; exact hid
  obtain ⟨h1, h2⟩ := step_inj (hh.sound a ha).ids hu0 ht0 hc1 hc2 hcc
  subst h2
  rw [h1] at hu0 hv hd
  rw [hu0] at ht0; cases ht0
  exact ⟨h1, he1.trans he2, ⟨o1, ho1, c1, hco1, plain_id he2, he1, hst⟩, hv, hd⟩

/-! ## Putting and erasing -/

theorem mem_putJob {j j' : Job} : ∀ {l : List Job}, j' ∈ putJob j l → j' = j ∨ (j' ∈ l)
  | [], h => Or.inl (by simpa [putJob] using h)
  | a :: l, h => by
    unfold putJob at h
    split at h
    · rcases List.mem_cons.mp h with h | h
      · exact Or.inl h
      · exact Or.inr (List.mem_cons_of_mem _ h)
    · rcases List.mem_cons.mp h with h | h
      · exact Or.inr (by rw [h]; exact List.mem_cons_self ..)
      · exact (mem_putJob h).imp id (List.mem_cons_of_mem _)

theorem putJob_ids {j : Job} : ∀ {l : List Job}, (l.map Job.id).Nodup → ((putJob j l).map Job.id).Nodup
  | [], _ => by simp [putJob]
  | a :: l, h => by
    unfold putJob
    rw [List.map_cons, List.nodup_cons] at h
    split
    · rename_i he
      rw [List.map_cons, List.nodup_cons, ← he]; exact h
    · rename_i he
      rw [List.map_cons, List.nodup_cons]
      refine ⟨?_, putJob_ids h.2⟩
      intro hm
      obtain ⟨b, hb, hbe⟩ := List.mem_map.mp hm
      rcases mem_putJob hb with rfl | hb
      · exact he hbe.symm
      · exact h.1 (List.mem_map.mpr ⟨b, hb, hbe⟩)

theorem erase_ids {s : Jobs} {id : Nat} (h : (s.jobs.map Job.id).Nodup) : ((s.erase id).map Job.id).Nodup :=
  (List.filter_sublist.map Job.id).nodup h

theorem mem_erase {s : Jobs} {id : Nat} {j : Job} : j ∈ s.erase id ↔ j ∈ s.jobs ∧ j.id ≠ id := by
  simp [Jobs.erase]

theorem get_some {s : Jobs} {id : Nat} {j : Job} (h : s.get id = some j) : j ∈ s.jobs ∧ j.id = id :=
  ⟨List.mem_of_find?_eq_some h, by simpa using List.find?_some h⟩

theorem get_of_mem {s : Jobs} {j : Job} (hn : (s.jobs.map Job.id).Nodup) (h : j ∈ s.jobs) : s.get j.id = some j := by
  cases hg : s.get j.id with
  | none =>
    have := List.find?_eq_none.mp hg j h
    simp at this
  | some k =>
    obtain ⟨h1, h2⟩ := get_some hg
    rw [nodup_inj hn h1 h h2]

theorem Tab.put {h : Obs → Prop} {s : Jobs} (ht : Tab h s) {j0 j : Job} (ho : Ok h j0 j) :
    Tab h { s with jobs := putJob j s.jobs } := by
  refine ⟨putJob_ids ht.ids, ?_, ht.arch⟩
  intro k hk
  rcases mem_putJob hk with rfl | hk
  · exact ⟨j0, ho⟩
  · exact ht.ok k hk

/-! ## Statuses -/

theorem succ_set {h : Obs → Prop} {j : Job} {i : Nat} {t' : Task} {n : Nat}
    (hs : ∀ (i : Nat) t, j.tasks[i]? = some t → TaskSucc h j.id t) (ht' : TaskSucc h j.id t') :
    ∀ (k : Nat) t, ({ j with tasks := j.tasks.set i t', next := n } : Job).tasks[k]? = some t → TaskSucc h j.id t := by
  intro k t hk
  rw [List.getElem?_set] at hk
  by_cases hik : i = k
  · rw [if_pos hik] at hk
    split at hk
    · cases hk; exact ht'
    · cases hk
  · rw [if_neg hik] at hk; exact hs k t hk

theorem TaskSucc.mark {h : Obs → Prop} {job n : Nat} {t : Task} (hs : TaskSucc h job t)
    (h1 : ∀ o ∈ t.ops, o.cmds.length ≤ 1) (hn : TookId h job n) : TaskSucc h job (t.mark n) := by
  intro o ho hsu
  rw [mark_cmds]
  obtain ⟨o', ho', rfl⟩ := List.mem_map.mp ho
  by_cases hh : o'.has n = true
  · simp only [hh, if_true] at hsu ⊢
    obtain ⟨c, hc, hid⟩ := has_iff.mp hh
    refine ⟨n, ⟨c, List.mem_flatMap.mpr ⟨o', ho', hc⟩, hid⟩, hn, ?_⟩
    intro c' hc'
    have hl := h1 o' ho'
    match hcm : o'.cmds with
    | [] => rw [hcm] at hc; cases hc
    | [a] =>
      rw [hcm] at hc hc'
      simp at hc hc'
      rw [hc', ← hc]; exact hid
    | a :: b :: l => rw [hcm] at hl; simp at hl
  · have hf : o'.has n = false := by simpa using hh
    simp only [hf] at hsu ⊢
    exact hs o' ho' hsu

theorem TaskSucc.failed {h : Obs → Prop} {job n : Nat} {t : Task} (hs : TaskSucc h job t) :
    TaskSucc h job { t with ops := Task.onFirst (fun o => o.failed n) n t.ops } := by
  have hcm : ({ t with ops := Task.onFirst (fun o => o.failed n) n t.ops } : Task).cmds.map Cmd.plain = t.cmds.map Cmd.plain :=
    onFirst_plain n t.ops
  intro o ho hsu
  have key : ∃ o' ∈ t.ops, o'.success = true ∧ o.cmds.map Cmd.plain = o'.cmds.map Cmd.plain := by
    rcases onFirst_mem _ _ _ _ ho with hm | ⟨o', hm, rfl⟩
    · exact ⟨o, hm, hsu, rfl⟩
    · exact ⟨o', hm, hsu, failed_plain o' n⟩
  obtain ⟨o', ho', hs', hpl⟩ := key
  obtain ⟨m, ⟨c, hc, hcid⟩, h2, h3⟩ := hs o' ho' hs'
  refine ⟨m, ?_, h2, ?_⟩
  · have : c.plain ∈ ({ t with ops := Task.onFirst (fun o => o.failed n) n t.ops } : Task).cmds.map Cmd.plain := by
      rw [hcm]; exact List.mem_map_of_mem hc
    obtain ⟨c', hc', he⟩ := List.mem_map.mp this
    exact ⟨c', hc', by rw [plain_id he]; exact hcid⟩
  · intro c' hc'
    have : c'.plain ∈ o'.cmds.map Cmd.plain := by rw [← hpl]; exact List.mem_map_of_mem hc'
    obtain ⟨c'', hc'', he⟩ := List.mem_map.mp this
    rw [← plain_id he]; exact h3 c'' hc''

theorem TaskSucc.move {h : Obs → Prop} {job n s : Nat} {t t' : Task} (hs : TaskSucc h job t) (h1 : t.cmds.length = 1)
    (hm : t.move n s = some t') : TaskSucc h job t' := by
  obtain ⟨x, hx⟩ := List.length_eq_one_iff.mp h1
  obtain ⟨_, k1, _, k3, k4⟩ := move_ops hx hm
  intro o ho hsu
  rcases k3 o ho with ⟨_, hf⟩ | ⟨o', ho', _, he⟩
  · rw [hf] at hsu; cases hsu
  · obtain ⟨m, ⟨c, hc, hcid⟩, h2, _⟩ := hs o' ho' (he.trans hsu)
    rw [hx] at hc
    have hcx : c = x := by simpa using hc
    subst hcx
    refine ⟨m, ⟨c, by rw [k1]; simp, hcid⟩, h2, ?_⟩
    intro c' hc'
    rcases k4 o ho with he' | he' <;> rw [he'] at hc'
    · cases hc'
    · have : c' = c := by simpa using hc'
      rw [this]; exact hcid

/-- A step whose marked task is finished is done. -/
theorem Hist.finished {h : Obs → Prop} (hh : Hist h) {j0 j : Job} (ho : Ok h j0 j) {n : Nat} {t : Task}
    (ht : j.tasks[j.next]? = some t) (hhas : t.has n = true) (hn : TookId h j.id n) (hf : (t.mark n).finished = true) :
    Done h j0 j.next := by
  obtain ⟨t0, ht0, hl⟩ := ho.like.get ht
  obtain ⟨c, hc, hcid⟩ := task_has_iff.mp hhas
  obtain ⟨x, hx, hxj, hxn⟩ := hn
  obtain ⟨_, _, _, hv, _⟩ := hh.find ho (hh.took x hx) hxj ht ht0 hc (by rw [hxn, hcid])
  refine ⟨t0, ht0, hv, ?_⟩
  intro o0 ho0 c0 hc0
  obtain ⟨c1, hc1, he1⟩ := hl.mem' (List.mem_flatMap.mpr ⟨o0, ho0, hc0⟩ : c0 ∈ t0.cmds)
  have hsucc := (ho.succ _ t ht).mark hl.single ⟨x, hx, hxj, hxn⟩
  have hc1' : c1 ∈ (t.mark n).cmds := by rw [mark_cmds]; exact hc1
  obtain ⟨o, ho', hco⟩ := List.mem_flatMap.mp hc1'
  have := List.all_eq_true.mp hf o ho'
  rcases Bool.or_eq_true_iff.mp this with hs | he
  · obtain ⟨m, _, ⟨y, hy, hyj, hyn⟩, h3⟩ := hsucc o ho' hs
    have hym := h3 c1 hco
    obtain ⟨k1, k2, ⟨o2, ho2, c2, hc2, hid2, hfor⟩, _, _⟩ := hh.find ho (hh.took y hy) hyj ht ht0 hc1 (by rw [hyn, hym])
    refine ⟨y, hy, by rw [hyj, ho.like.id], k1, k2.trans he1, ?_⟩
    have hoo : o2 = o0 := op_inj (ids_task (hh.sound j0 ho.made).ids (List.mem_of_getElem? ht0)) ho2 ho0 hc2 hc0
      (by rw [hid2]; exact plain_id he1)
    subst hoo
    intro hlf
    refine hfor.2 ?_
    rw [← plain_type hfor.1, plain_type k2, plain_type he1]; exact hlf
  · rw [List.isEmpty_iff.mp he] at hco; cases hco

theorem Ok.doneStep {h : Obs → Prop} (hh : Hist h) {j0 j : Job} (ho : Ok h j0 j) {n : Nat} {t : Task}
    (ht : j.tasks[j.next]? = some t) (hhas : t.has n = true) (hn : TookId h j.id n) : Ok h j0 (j.done j.next t n) := by
  obtain ⟨t0, ht0, hl⟩ := ho.like.get ht
  have hlt : j.next < j.tasks.length := (List.getElem?_eq_some_iff.mp ht).1
  refine ⟨ho.made, ho.like.set ht0 (hl.mark n), succ_set ho.succ ((ho.succ _ t ht).mark hl.single hn), ?_, ?_⟩
  · show (if (t.mark n).finished then j.next + 1 else j.next) ≤ (j.tasks.set _ _).length
    rw [List.length_set]; split <;> omega
  · intro m hm
    have hm' : m < (if (t.mark n).finished then j.next + 1 else j.next) := hm
    split at hm'
    · rename_i hf
      by_cases hmn : m = j.next
      · rw [hmn]; exact hh.finished ho ht hhas hn hf
      · exact ho.done m (by omega)
    · exact ho.done m hm'

theorem Ok.failStep {h : Obs → Prop} (hh : Hist h) {j0 j : Job} (ho : Ok h j0 j) {n i : Nat} {t : Task}
    (ht : j.tasks[i]? = some t) (hhas : t.has n = true) {x : Sent} (hx : h (.sent x)) (hxj : x.job = j.id)
    (hxn : x.cmd.id = n) : Ok h j0 (j.failed i t n) := by
  obtain ⟨t0, ht0, hl⟩ := ho.like.get ht
  have hlt : i < j.tasks.length := (List.getElem?_eq_some_iff.mp ht).1
  obtain ⟨c, hc, hcid⟩ := task_has_iff.mp hhas
  obtain ⟨_, _, _, _, hd⟩ := hh.find ho hx hxj ht ht0 hc (by rw [hxn, hcid])
  refine ⟨ho.made, ho.like.set ht0 (hl.failed n), succ_set ho.succ (ho.succ _ t ht).failed, ?_, hd⟩
  show i ≤ (j.tasks.set _ _).length
  rw [List.length_set]; omega

theorem Ok.moveStep {h : Obs → Prop} (hh : Hist h) {j0 j : Job} (ho : Ok h j0 j) {n i s : Nat} {t t' : Task}
    (ht : j.tasks[i]? = some t) (hhas : t.has n = true) {x : Sent} (hx : h (.sent x)) (hxj : x.job = j.id)
    (hxn : x.cmd.id = n) (hld : x.cmd.type.leader = true) (hm : t.move n s = some t') :
    Ok h j0 { j with tasks := j.tasks.set i t' } := by
  obtain ⟨t0, ht0, hl⟩ := ho.like.get ht
  obtain ⟨c, hc, hcid⟩ := task_has_iff.mp hhas
  obtain ⟨_, hpl, _, _, _⟩ := hh.find ho hx hxj ht ht0 hc (by rw [hxn, hcid])
  obtain ⟨c0, hc0, he0⟩ := hl.mem hc
  have hty : c0.type.leader = true := by rw [plain_type he0, ← plain_type hpl]; exact hld
  have h1 : t0.cmds.length = 1 := (hh.sound j0 ho.made).alone t0 (List.mem_of_getElem? ht0) c0 hc0 hty
  have hld' : ∀ d ∈ t.cmds, d.type.leader = true := by
    intro d hd
    have hl1 : t.cmds.length = 1 := by rw [hl.len]; exact h1
    obtain ⟨y, hy⟩ := List.length_eq_one_iff.mp hl1
    rw [hy] at hd hc
    have hdc : d = c := by rw [List.mem_singleton.mp hd, List.mem_singleton.mp hc]
    rw [hdc, ← plain_type hpl]; exact hld
  refine ⟨ho.made, ho.like.set (n := j.next) ht0 (hl.move h1 hld' hm), ?_, ?_, ho.done⟩
  · exact succ_set (n := j.next) ho.succ ((ho.succ _ t ht).move (by rw [hl.len]; exact h1) hm)
  · show j.next ≤ (j.tasks.set _ _).length
    rw [List.length_set]; exact ho.le

theorem Ok.fresh {h : Obs → Prop} (hh : Hist h) {j : Job} (hm : h (.made j)) : Ok h j j := by
  have hs := hh.sound j hm
  refine ⟨hm, Like.refl hs, ?_, by rw [hs.next]; omega, fun m hlt => by rw [hs.next] at hlt; omega⟩
  intro i t ht o ho hsu
  rw [hs.fresh t (List.mem_of_getElem? ht) o ho] at hsu; cases hsu

/-- Applying an increment. -/
theorem Tab.apply {h : Obs → Prop} (hh : Hist h) {s s' : Jobs} (ht : Tab h s) {i : Inc} (hi : IncOk h i)
    (ha : s.apply i = some s') : Tab h s' := by
  cases i with
  | create j =>
    simp only [Jobs.apply, Option.some.injEq] at ha; subst ha
    exact ht.put (Ok.fresh hh hi)
  | update j =>
    simp only [Jobs.apply, Option.some.injEq] at ha; subst ha
    obtain ⟨j0, h0⟩ := hi
    exact ht.put h0
  | delete id =>
    simp only [Jobs.apply] at ha
    split at ha
    · cases ha
    · rename_i j hg
      cases ha
      obtain ⟨hm, hid⟩ := get_some hg
      refine ⟨erase_ids ht.ids, fun k hk => ht.ok k (mem_erase.mp hk).1, ?_⟩
      intro k hk
      rcases List.mem_cons.mp hk with he | hk
      · cases he
        obtain ⟨j0, h0⟩ := ht.ok j hm
        rw [hid]
        exact ⟨⟨j0, h0.made, h0.like⟩, hi⟩
      · exact ht.arch k hk
  | status id n st =>
    simp only [Jobs.apply] at ha
    split at ha
    · cases ha; exact ht
    · rename_i j hg
      cases ha
      obtain ⟨hm, hid⟩ := get_some hg
      obtain ⟨j0, h0⟩ := ht.ok j hm
      unfold Jobs.onStatus
      cases hf : j.find n with
      | none => exact ht
      | some k =>
        obtain ⟨t, htk, hhas⟩ := find_some hf
        simp only [htk]
        cases st with
        | done =>
          simp only
          split
          · rename_i hk
            subst hk
            have hi' : TookId h j.id n := by rw [hid]; exact hi
            exact ht.put (h0.doneStep hh htk hhas hi')
          · exact ht
        | fail =>
          simp only
          cases hfo : t.ops.find? (fun o => o.has n) with
          | none => exact ht
          | some o =>
            simp only
            split
            · refine ⟨erase_ids ht.ids, fun k hk => ht.ok k (mem_erase.mp hk).1, ?_⟩
              intro k hk
              rcases List.mem_cons.mp hk with he | hk
              · cases he
              · exact ht.arch k hk
            · obtain ⟨x, hx, hxj, hxn⟩ := hi
              exact ht.put (h0.failStep hh htk hhas hx (by rw [hxj, hid]) hxn)
  | move id n st =>
    simp only [Jobs.apply] at ha
    split at ha
    · cases ha; exact ht
    · rename_i j hg
      obtain ⟨hm, hid⟩ := get_some hg
      obtain ⟨j0, h0⟩ := ht.ok j hm
      cases hf : j.find n with
      | none => rw [hf] at ha; cases ha; exact ht
      | some k =>
        obtain ⟨t, htk, hhas⟩ := find_some hf
        simp only [hf, htk, Option.bind_some] at ha
        cases hmv : t.move n st with
        | none => rw [hmv] at ha; cases ha; exact ht
        | some t' =>
          simp only [hmv, Option.some.injEq] at ha; subst ha
          obtain ⟨x, hx, hxj, hxn, hld⟩ := hi
          exact ht.put (h0.moveStep hh htk hhas hx (by rw [hxj, hid]) hxn hld hmv)
  | drop r =>
    simp only [Jobs.apply, Option.some.injEq] at ha; subst ha; exact ht

theorem Tab.applyAll {h : Obs → Prop} (hh : Hist h) : ∀ {e : List Inc} {s s' : Jobs}, Tab h s → (∀ i ∈ e, IncOk h i) →
    s.applyAll e = some s' → Tab h s'
  | [], s, s', ht, _, ha => by cases ha; exact ht
  | i :: e, s, s', ht, hi, ha => by
    unfold Jobs.applyAll at ha
    cases h1 : s.apply i with
    | none => rw [h1] at ha; cases ha
    | some s1 =>
      rw [h1, Option.bind_some] at ha
      exact Tab.applyAll hh (ht.apply hh (hi i (List.mem_cons_self ..)) h1) (fun k hk => hi k (List.mem_cons_of_mem _ hk)) ha

end Verif.Job
