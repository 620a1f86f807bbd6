import Verif.Replica.Live

/-! What steps do to keys outside the region. -/

namespace Verif.Replica

theorem lt_of_lt_of_le {a b c : Bytes} (h1 : a < b) (h2 : b ≤ c) : a < c := by
  rcases List.le_iff_lt_or_eq.1 h2 with h | rfl
  · exact List.lt_trans h1 h
  · exact h1

theorem has_mono {r q : Range} {x : Bytes} (h1 : r.lo ≤ q.lo) (h2 : q.hi ≤ r.hi) (h : q.has x = true) :
    r.has x = true := by
  unfold Range.has at *
  simp only [Bool.and_eq_true, decide_eq_true_eq] at *
  exact ⟨List.le_trans h1 h.1, lt_of_lt_of_le h.2 h2⟩

theorem valid_inside {cfs : List Nat} {r : Range} {c : Cmd} (h : valid cfs r c = true) {k : Key}
    (hk : ¬ (cfs.contains k.1 = true ∧ r.has k.2 = true)) : effect c k = none := by
  cases c with
  | split key => rfl
  | other => rfl
  | write puts dels =>
    unfold valid at h
    simp only [Bool.and_eq_true, List.all_eq_true] at h
    unfold effect
    dsimp only
    rw [if_neg]
    · cases hf : puts.reverse.find? (fun p => p.1 == k) with
      | none => rfl
      | some p =>
        exfalso
        have h1 := List.find?_some hf
        have h2 := List.mem_of_find?_eq_some hf
        have h3 := h.1 p (List.mem_reverse.1 h2)
        have h4 : p.1 = k := by simpa using h1
        rw [h4] at h3
        exact hk h3
    · intro hc
      have := h.2 k (by simpa using hc)
      exact hk this
  | deleteRange cf rs =>
    unfold valid at h
    simp only [Bool.and_eq_true, List.all_eq_true, decide_eq_true_eq] at h
    unfold effect
    dsimp only
    rw [if_neg]
    rintro ⟨h1, h2⟩
    rw [List.any_eq_true] at h2
    obtain ⟨q, h3, h4⟩ := h2
    obtain ⟨h5, h6⟩ := h.2 q h3
    exact hk ⟨by rw [h1]; exact h.1, has_mono h5 h6 h4⟩
  | txnDeleteRange q =>
    unfold valid at h
    simp only [Bool.and_eq_true, List.all_eq_true, decide_eq_true_eq] at h
    unfold effect
    dsimp only
    rw [if_neg]
    rintro ⟨h1, h2⟩
    exact hk ⟨h.1.1 _ (by simpa using h1), has_mono h.1.2 h.2 h2⟩

theorem applyEntry_outside {cfs : List Nat} {v : View} {log : List Entry} (hlog : LogOk cfs v log) {b : Node}
    {e : Entry} (h : Close cfs v log b b.pos) (he : log[b.pos]? = some e) (own : Bool) {k : Key}
    (hk : ¬ (cfs.contains k.1 = true ∧ b.range.has k.2 = true)) :
    (applyEntry b e own).data k = b.data k := by
  obtain ⟨n, h1, h2, h3, h4, h5⟩ := h
  obtain ⟨hle, hval⟩ := hlog _ e he
  obtain ⟨w1, w2⟩ := S_version v log h2 h1
  unfold applyEntry
  dsimp only
  by_cases hev : e.version = b.version
  · rw [if_neg (by simp [hev])]
    have hv := hval (by omega)
    rw [← w2 (by omega), ← h4] at hv
    have hno := valid_inside hv hk
    cases hc : e.cmd with
    | split key => dsimp only; split <;> rfl
    | txnDeleteRange r =>
      rw [hc] at hno
      dsimp only
      split
      · dsimp only; rw [exec_eq, hno]; rfl
      · rfl
    | write p d => rw [hc] at hno; dsimp only; rw [exec_eq, hno]; rfl
    | deleteRange c rs => rw [hc] at hno; dsimp only; rw [exec_eq, hno]; rfl
    | other => rfl
  · rw [if_pos (by simpa using hev)]

theorem run_cfs : ∀ (evs : List Ev) (s : Cluster), (run s evs).cfs = s.cfs := by
  intro evs
  induction evs with
  | nil => intro s; rfl
  | cons e es ih =>
    intro s
    change (run (step s e) es).cfs = s.cfs
    rw [ih]
    unfold step Cluster.onNode
    cases e <;> dsimp only <;> (repeat' split) <;> rfl

/-- A snapshot's files hold nothing before its range. -/
def Low (sn : Snap) : Prop := ∀ c f x, sn.files c = some f → x < sn.range.lo → f x = none

structure Lows (s : Cluster) : Prop where
  inst : ∀ (i : Nat) (b : Node) (sn : Snap), s.nodes[i]? = some b → b.inst = some sn → Low sn
  sent : ∀ (i : Nat) (sn : Snap), s.sent[i]? = some sn → Low sn

theorem Lows.setNode {s : Cluster} (h : Lows s) (a : Nat) (b : Node) (hb : ∀ sn, b.inst = some sn → Low sn) :
    ∀ (i : Nat) (c : Node) (sn : Snap), (s.nodes.set a b)[i]? = some c → c.inst = some sn → Low sn := by
  intro i c sn hc hs
  rw [List.getElem?_set] at hc
  by_cases hi : a = i
  · rw [if_pos hi] at hc
    split at hc
    · obtain rfl := Option.some.inj hc; exact hb sn hs
    · cases hc
  · rw [if_neg hi] at hc; exact h.inst i c sn hc hs

theorem Lows.onNode {s : Cluster} (h : Lows s) (a : Nat) (f : Node → Node)
    (hf : ∀ b, (∀ sn, b.inst = some sn → Low sn) → ∀ sn, (f b).inst = some sn → Low sn) :
    Lows (s.onNode a f) := by
  refine ⟨?_, h.sent⟩
  intro i c sn hc hs
  unfold Cluster.onNode at hc
  dsimp only at hc
  rw [List.getElem?_modify] at hc
  cases hn : s.nodes[i]? with
  | none => rw [hn] at hc; cases hc
  | some b =>
    rw [hn] at hc
    by_cases hi : a = i
    · subst hi
      simp only [if_true] at hc
      obtain rfl := Option.some.inj hc
      exact hf b (fun sn' hs' => h.inst a b sn' hn hs') sn hs
    · simp only [if_neg hi] at hc
      obtain rfl := Option.some.inj hc
      exact h.inst i _ sn hn hs

theorem applyEntry_inst (b : Node) (e : Entry) (own : Bool) : (applyEntry b e own).inst = b.inst := by
  unfold applyEntry
  dsimp only
  split
  · rfl
  · cases e.cmd with
    | split key => dsimp only; split <;> rfl
    | txnDeleteRange r => dsimp only; split <;> rfl
    | _ => rfl

theorem loadStep_low (cfs : List Nat) (b : Node) (sn : Snap) (pc : Pc) (h : Low sn)
    (hb : ∀ sn, b.inst = some sn → Low sn) : ∀ sn', (loadStep cfs b sn pc).inst = some sn' → Low sn' := by
  intro sn' hs
  unfold loadStep at hs
  cases pc with
  | check => dsimp only at hs; split at hs <;> (try split at hs) <;> exact hb sn' hs
  | wipe => exact hb sn' hs
  | ingest todo =>
    cases todo with
    | nil => exact hb sn' hs
    | cons c cs => dsimp only at hs; split at hs <;> exact hb sn' hs
  | clean todo =>
    cases todo with
    | nil => exact hb sn' hs
    | cons c cs =>
      obtain rfl := Option.some.inj hs
      intro x f y hf hy
      dsimp only at hf hy
      by_cases hx : x = c
      · rw [if_pos hx] at hf; cases hf
      · rw [if_neg hx] at hf; exact h x f y hf hy
  | done => exact hb sn' hs

theorem Lows.step {s : Cluster} (h : Lows s) (ev : Ev) : Lows (step s ev) := by
  unfold Verif.Replica.step
  cases ev with
  | propose a c =>
    dsimp only
    cases hn : s.nodes[a]? with
    | none => exact h
    | some n =>
      dsimp only
      split
      · exact ⟨h.setNode a _ (fun sn hs => h.inst a n sn hn hs), h.sent⟩
      · exact h
  | ship a b =>
    dsimp only
    cases hn : s.nodes[a]? with
    | none => exact h
    | some n =>
      cases hm : s.nodes[b]? with
      | none => exact h
      | some m =>
        dsimp only
        split
        · exact ⟨h.setNode b _ (fun sn hs => h.inst b m sn hm hs), h.sent⟩
        · exact h
  | apply b own =>
    dsimp only
    cases hn : s.nodes[b]? with
    | none => exact h
    | some n =>
      dsimp only
      split
      · cases he : s.log[n.pos]? with
        | none => exact h
        | some e =>
          exact ⟨h.setNode b _ (fun sn hs => h.inst b n sn hn (by rw [applyEntry_inst] at hs; exact hs)), h.sent⟩
      · exact h
  | save b =>
    refine h.onNode b _ (fun n hn sn hs => ?_)
    split at hs <;> exact hn sn hs
  | snapshot b =>
    refine h.onNode b _ (fun n hn sn hs => ?_)
    split at hs
    · cases hs
    · exact hn sn hs
  | trim b k =>
    refine h.onNode b _ (fun n hn sn hs => ?_)
    split at hs <;> exact hn sn hs
  | crash b => exact h.onNode b _ (fun n hn sn hs => hn sn hs)
  | start b =>
    refine h.onNode b _ (fun n hn sn hs => hn sn ?_)
    rw [← hs]
    unfold start
    cases n.phase with
    | up => rfl
    | load pc => rfl
    | down =>
      dsimp only
      cases hi : n.inst with
      | none => rfl
      | some sn' => dsimp only; split <;> rfl
  | openSnap a =>
    dsimp only
    cases hn : s.nodes[a]? with
    | none => exact h
    | some n =>
      dsimp only
      split
      · refine ⟨h.inst, ?_⟩
        intro i sn hs
        dsimp only at hs
        rcases Nat.lt_or_ge i s.sent.length with hlt | hge
        · rw [List.getElem?_append_left hlt] at hs; exact h.sent i sn hs
        · rw [List.getElem?_append_right hge] at hs
          have : i - s.sent.length = 0 := by
            have := (List.getElem?_eq_some_iff.1 hs).1
            simp only [List.length_cons, List.length_nil] at this
            omega
          rw [this] at hs
          obtain rfl := Option.some.inj hs
          intro c f x hf hx
          unfold openSnap at hf hx
          obtain rfl := Option.some.inj hf
          exact if_neg (fun hle => absurd hx hle)
      · exact h
  | install b i =>
    dsimp only
    cases hn : s.nodes[b]? with
    | none => exact h
    | some n =>
      cases hs : s.sent[i]? with
      | none => exact h
      | some sn =>
        dsimp only
        split
        · refine ⟨h.setNode b _ (fun sn' hs' => ?_), h.sent⟩
          obtain rfl := Option.some.inj hs'
          exact h.sent i _ hs
        · exact h
  | load b =>
    refine h.onNode b _ (fun n hn sn hs => ?_)
    cases hp : n.phase with
    | up => rw [hp] at hs; exact hn sn hs
    | down => rw [hp] at hs; exact hn sn hs
    | load pc =>
      cases hi : n.inst with
      | none => rw [hp, hi] at hs; dsimp only at hs; rw [hi] at hs; cases hs
      | some sn' =>
        rw [hp, hi] at hs
        exact loadStep_low s.cfs n sn' pc (hn sn' hi) hn sn hs
  | foreign b k x =>
    refine h.onNode b _ (fun n hn sn hs => ?_)
    split at hs <;> exact hn sn hs
  | join a d =>
    dsimp only
    cases hn : s.nodes[a]? with
    | none => exact h
    | some n =>
      refine ⟨?_, h.sent⟩
      intro i b sn hb hs
      dsimp only at hb
      rcases Nat.lt_or_ge i s.nodes.length with hlt | hge
      · rw [List.getElem?_append_left hlt] at hb; exact h.inst i b sn hb hs
      · rw [List.getElem?_append_right hge] at hb
        have : i - s.nodes.length = 0 := by
          have := (List.getElem?_eq_some_iff.1 hb).1
          simp only [List.length_cons, List.length_nil] at this
          omega
        rw [this] at hb
        obtain rfl := Option.some.inj hb
        cases hs

theorem Lows.run {evs : List Ev} : ∀ {s : Cluster}, Lows s → Lows (run s evs) := by
  induction evs with
  | nil => intro s h; exact h
  | cons e es ih => intro s h; exact ih (h.step e)

theorem lows_init (cfs : List Nat) (v : View) (ds : List Data) : Lows (init cfs v ds) := by
  refine ⟨?_, ?_⟩
  · intro i b sn hb hs
    unfold init at hb
    dsimp only at hb
    rw [List.getElem?_map] at hb
    cases hdi : ds[i]? with
    | none => rw [hdi] at hb; cases hb
    | some d => rw [hdi] at hb; obtain rfl := Option.some.inj hb; cases hs
  · intro i sn hs; unfold init at hs; dsimp only at hs; rw [List.getElem?_nil] at hs; cases hs

theorem loadStep_outside {cfs : List Nat} {v : View} {log : List Entry} {b : Node} (h : NodeOk cfs v log b)
    {sn : Snap} {pc : Pc} (hp : b.phase = .load pc) (hi : b.inst = some sn) (hl : Low sn) {k : Key}
    (hk : cfs.contains k.1 = false ∨ k.2 < b.range.lo) : (loadStep cfs b sn pc).data k = b.data k := by
  have hst := h.st
  unfold StOk at hst
  rw [hp] at hst
  unfold loadStep
  cases pc with
  | check => dsimp only; split <;> (try split) <;> rfl
  | wipe =>
    dsimp only
    unfold wipeRange
    rw [if_neg]
    rintro ⟨h1, h2⟩
    unfold Range.has at h2
    simp only [Bool.and_eq_true, decide_eq_true_eq] at h2
    rcases hk with hk | hk
    · rw [hk] at h1; cases h1
    · exact absurd hk h2.1
  | ingest todo =>
    obtain ⟨sn', h1, h2, h3, h4, h5, h6, h7, h8⟩ := hst
    rw [hi] at h1
    obtain rfl := Option.some.inj h1
    cases todo with
    | nil => rfl
    | cons c cs =>
      dsimp only
      cases hf : sn.files c with
      | none => rfl
      | some f =>
        dsimp only
        by_cases hkc : k.1 = c
        · rw [if_pos hkc]
          rcases hk with hk | hk
          · have := h7 c (List.mem_cons_self ..)
            rw [hkc] at hk
            simp [this] at hk
          · rw [hl c f k.2 hf (by rw [← h5]; exact hk)]
        · rw [if_neg hkc]
  | clean todo => cases todo <;> rfl
  | done => rfl

theorem onNode_other {s : Cluster} {a b : Nat} (h : a ≠ b) (f : Node → Node) :
    (s.onNode a f).nodes[b]? = s.nodes[b]? := by
  unfold Cluster.onNode
  dsimp only
  rw [List.getElem?_modify]
  simp only [if_neg h]
  cases s.nodes[b]? <;> rfl

/-- Steps other than loads and those of other regions only change keys inside the region. -/
theorem step_outside {v : View} {s : Cluster} (h : Inv v s) {ev : Ev} {b : Nat} {n n' : Node}
    (hn : s.nodes[b]? = some n) (hn' : (step s ev).nodes[b]? = some n') (h1 : ev ≠ .load b)
    (h2 : ∀ k x, ev ≠ .foreign b k x) {k : Key}
    (hk : ¬ (s.cfs.contains k.1 = true ∧ n.range.has k.2 = true)) : n'.data k = n.data k := by
  have hblen : b < s.nodes.length := (List.getElem?_eq_some_iff.1 hn).1
  have hsame : ∀ (x : Option Node), x = s.nodes[b]? → x = some n' → n'.data k = n.data k := by
    intro x hx hx'
    rw [hx, hn] at hx'
    rw [Option.some.inj hx']
  have hset : ∀ (a : Nat) (m m' : Node), s.nodes[a]? = some m → (a = b → m'.data k = m.data k) →
      (s.nodes.set a m')[b]? = some n' → n'.data k = n.data k := by
    intro a m m' hm hmm hget
    rw [List.getElem?_set] at hget
    by_cases hab : a = b
    · subst hab
      rw [if_pos rfl, if_pos hblen] at hget
      rw [hn] at hm
      rw [← Option.some.inj hget, hmm rfl, Option.some.inj hm]
    · rw [if_neg hab, hn] at hget
      rw [Option.some.inj hget]
  have hon : ∀ (a : Nat) (f : Node → Node), (a = b → (f n).data k = n.data k) →
      (s.onNode a f).nodes[b]? = some n' → n'.data k = n.data k := by
    intro a f hf hget
    by_cases hab : a = b
    · subst hab
      rw [onNode_get hn] at hget
      rw [← Option.some.inj hget, hf rfl]
    · rw [onNode_other hab, hn] at hget
      rw [Option.some.inj hget]
  unfold step at hn'
  cases ev with
  | propose a c =>
    dsimp only at hn'
    cases hm : s.nodes[a]? with
    | none => rw [hm] at hn'; exact hsame _ rfl hn'
    | some m =>
      rw [hm] at hn'
      dsimp only at hn'
      split at hn'
      · refine hset a m _ hm ?_ hn'
        intro _; rfl
      · exact hsame _ rfl hn'
  | ship a c =>
    dsimp only at hn'
    cases hm : s.nodes[a]? with
    | none => rw [hm] at hn'; exact hsame _ rfl hn'
    | some m =>
      cases hc : s.nodes[c]? with
      | none => rw [hm, hc] at hn'; exact hsame _ rfl hn'
      | some m2 =>
        rw [hm, hc] at hn'
        dsimp only at hn'
        split at hn'
        · refine hset c m2 _ hc ?_ hn'
          intro _; rfl
        · exact hsame _ rfl hn'
  | apply a own =>
    dsimp only at hn'
    cases hm : s.nodes[a]? with
    | none => rw [hm] at hn'; exact hsame _ rfl hn'
    | some m =>
      rw [hm] at hn'
      dsimp only at hn'
      split at hn'
      · rename_i hg
        cases he : s.log[m.pos]? with
        | none => rw [he] at hn'; exact hsame _ rfl hn'
        | some e =>
          rw [he] at hn'
          refine hset a m _ hm (fun hab => ?_) hn'
          subst hab
          rw [hn] at hm
          obtain rfl := Option.some.inj hm
          have hno := h.nodes a n hn
          have hst := hno.st
          unfold StOk at hst
          rw [hg.1] at hst
          rcases hst with ⟨_, hc⟩ | ⟨hb, _, hi⟩
          · exact applyEntry_outside h.log hc he own hk
          · have := (hno.blank0 hb).2.2 hi; omega
      · exact hsame _ rfl hn'
  | save a => exact hon a _ (fun _ => by split <;> rfl) hn'
  | snapshot a => exact hon a _ (fun _ => by split <;> rfl) hn'
  | trim a x => exact hon a _ (fun _ => by split <;> rfl) hn'
  | crash a => exact hon a _ (fun _ => rfl) hn'
  | start a =>
    refine hon a _ (fun _ => ?_) hn'
    unfold start
    cases n.phase with
    | up => rfl
    | load pc => rfl
    | down =>
      dsimp only
      cases n.inst with
      | none => rfl
      | some sn => dsimp only; split <;> rfl
  | openSnap a =>
    dsimp only at hn'
    cases hm : s.nodes[a]? with
    | none => rw [hm] at hn'; exact hsame _ rfl hn'
    | some m => rw [hm] at hn'; dsimp only at hn'; split at hn' <;> exact hsame _ rfl hn'
  | install a i =>
    dsimp only at hn'
    cases hm : s.nodes[a]? with
    | none => rw [hm] at hn'; exact hsame _ rfl hn'
    | some m =>
      cases hc : s.sent[i]? with
      | none => rw [hm, hc] at hn'; exact hsame _ rfl hn'
      | some sn =>
        rw [hm, hc] at hn'
        dsimp only at hn'
        split at hn'
        · refine hset a m _ hm ?_ hn'
          intro _; rfl
        · exact hsame _ rfl hn'
  | load a => exact hon a _ (fun hab => absurd (by rw [hab]) h1) hn'
  | foreign a y x => exact hon a _ (fun hab => absurd (by rw [hab]) (h2 y x)) hn'
  | join a d =>
    dsimp only at hn'
    cases hm : s.nodes[a]? with
    | none => rw [hm] at hn'; exact hsame _ rfl hn'
    | some m =>
      rw [hm] at hn'
      dsimp only at hn'
      rw [List.getElem?_append_left hblen] at hn'
      exact hsame _ rfl hn'

theorem load_outside {v : View} {s : Cluster} (h : Inv v s) (hl : Lows s) {b : Nat} {n n' : Node}
    (hn : s.nodes[b]? = some n) (hn' : (step s (.load b)).nodes[b]? = some n') {k : Key}
    (hk : s.cfs.contains k.1 = false ∨ k.2 < n.range.lo) : n'.data k = n.data k := by
  unfold step at hn'
  dsimp only at hn'
  rw [onNode_get hn] at hn'
  rw [← Option.some.inj hn']
  cases hp : n.phase with
  | up => rfl
  | down => rfl
  | load pc =>
    cases hi : n.inst with
    | none => rfl
    | some sn => exact loadStep_outside (h.nodes b n hn) hp hi (hl.inst b n sn hn hi) hk

end Verif.Replica
