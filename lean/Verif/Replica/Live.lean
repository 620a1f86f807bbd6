import Verif.Replica.Step

/-! Loading a snapshot ends, a replica that is down can be started, and entries can be applied. -/

namespace Verif.Replica

theorem run_append (s : Cluster) (a b : List Ev) : run s (a ++ b) = run (run s a) b := by
  unfold run; rw [List.foldl_append]

theorem okRun_append (s : Cluster) : ∀ (a b : List Ev), okRun s (a ++ b) = (okRun s a && okRun (run s a) b) := by
  intro a
  induction a generalizing s with
  | nil => intro b; simp [okRun, run]
  | cons e es ih =>
    intro b
    change (okEv s e && okRun (step s e) (es ++ b)) =
      ((okEv s e && okRun (step s e) es) && okRun (run (step s e) es) b)
    rw [ih, Bool.and_assoc]

theorem onNode_get {s : Cluster} {b : Nat} {n : Node} (h : s.nodes[b]? = some n) (f : Node → Node) :
    (s.onNode b f).nodes[b]? = some (f n) := by
  unfold Cluster.onNode
  dsimp only
  rw [List.getElem?_modify, h]
  simp

/-- The events that only concern replica `b`'s own progress. -/
def ownEv (b : Nat) : Ev → Bool
  | .apply c own => decide (c = b) && own
  | .start c => decide (c = b)
  | .load c => decide (c = b)
  | _ => false

/-- Steps left in a load. -/
def Pc.left (cfs : List Nat) : Pc → Nat
  | .check => 2 * cfs.length + 5
  | .wipe => 2 * cfs.length + 4
  | .ingest todo => todo.length + cfs.length + 3
  | .clean todo => todo.length + 2
  | .done => 1

theorem loadStep_left (cfs : List Nat) (b : Node) (sn : Snap) (pc : Pc) :
    (loadStep cfs b sn pc).have' = b.have' ∧
    (((loadStep cfs b sn pc).phase = .up ∧ (loadStep cfs b sn pc).applied = sn.last ∧
      (loadStep cfs b sn pc).saved = sn.last) ∨
    ∃ pc' sn', (loadStep cfs b sn pc).phase = .load pc' ∧ (loadStep cfs b sn pc).inst = some sn' ∧
      sn'.last = sn.last ∧ pc'.left cfs < pc.left cfs) ∨ b.inst ≠ some sn := by
  by_cases hi : b.inst = some sn
  · left
    cases pc with
    | check =>
      unfold loadStep
      dsimp only
      by_cases h1 : sn.version < b.version
      · rw [if_pos h1]; exact ⟨rfl, .inr ⟨_, sn, rfl, hi, rfl, by simp only [Pc.left]; omega⟩⟩
      · rw [if_neg h1]
        by_cases h2 : b.version < sn.version
        · rw [if_pos h2]; exact ⟨rfl, .inr ⟨_, sn, rfl, hi, rfl, by simp only [Pc.left]; omega⟩⟩
        · rw [if_neg h2]; exact ⟨rfl, .inr ⟨_, sn, rfl, hi, rfl, by simp only [Pc.left]; omega⟩⟩
    | wipe => exact ⟨rfl, .inr ⟨_, sn, rfl, hi, rfl, by simp only [Pc.left]; omega⟩⟩
    | ingest todo =>
      cases todo with
      | nil => exact ⟨rfl, .inr ⟨_, sn, rfl, hi, rfl, by simp only [Pc.left, List.length_nil]; omega⟩⟩
      | cons c cs =>
        unfold loadStep
        dsimp only
        cases sn.files c with
        | none =>
          exact ⟨rfl, .inr ⟨_, sn, rfl, hi, rfl, by simp only [Pc.left, List.length_cons]; omega⟩⟩
        | some f =>
          exact ⟨rfl, .inr ⟨_, sn, rfl, hi, rfl, by simp only [Pc.left, List.length_cons]; omega⟩⟩
    | clean todo =>
      cases todo with
      | nil => exact ⟨rfl, .inr ⟨_, sn, rfl, hi, rfl, by simp only [Pc.left, List.length_nil]; omega⟩⟩
      | cons c cs => exact ⟨rfl, .inr ⟨_, _, rfl, rfl, rfl, by simp only [Pc.left, List.length_cons]; omega⟩⟩
    | done => exact ⟨rfl, .inl ⟨rfl, rfl, rfl⟩⟩
  · right; exact hi

theorem load_ends (b : Nat) : ∀ (k : Nat) (s : Cluster) (n : Node) (sn : Snap) (pc : Pc),
    pc.left s.cfs ≤ k → s.nodes[b]? = some n → n.phase = .load pc → n.inst = some sn →
    ∃ evs n', (∀ e ∈ evs, e = Ev.load b) ∧ okRun s evs = true ∧ (run s evs).nodes[b]? = some n' ∧
      (run s evs).log = s.log ∧ n'.have' = n.have' ∧
      n'.phase = .up ∧ n'.applied = sn.last ∧ n'.saved = sn.last := by
  intro k
  induction k with
  | zero =>
    intro s n sn pc hk
    cases pc <;> simp only [Pc.left] at hk <;> omega
  | succ k ih =>
    intro s n sn pc hk hn hp hi
    have hstep : (step s (.load b)).nodes[b]? = some (loadStep s.cfs n sn pc) := by
      unfold step
      dsimp only
      rw [onNode_get hn, hp, hi]
    rcases loadStep_left s.cfs n sn pc with ⟨hh, hh2⟩ | hno
    · rcases hh2 with ⟨h1, h2, h3⟩ | ⟨pc', sn', h1, h2, h3, h4⟩
      · refine ⟨[.load b], _, ?_, rfl, hstep, rfl, hh, h1, h2, h3⟩
        intro e he; simpa using he
      · obtain ⟨evs, n', e1, e2, e3, e4, e5, e6, e7, e8⟩ :=
          ih (step s (.load b)) _ sn' pc' (by change pc'.left s.cfs ≤ k; omega) hstep h1 h2
        refine ⟨.load b :: evs, n', ?_, ?_, e3, e4, by rw [e5, hh], e6, by rw [e7, h3], by rw [e8, h3]⟩
        · intro e he
          rcases List.mem_cons.1 he with h | h
          · exact h
          · exact e1 e h
        · unfold okRun
          rw [e2]; rfl
    · exact absurd hi hno

theorem apply_all {v : View} (b : Nat) : ∀ (k : Nat) (s : Cluster) (n : Node), Inv v s →
    s.nodes[b]? = some n → n.phase = .up → n.have' - n.pos ≤ k →
    ∃ evs n', (∀ e ∈ evs, e = Ev.apply b true) ∧ okRun s evs = true ∧ (run s evs).nodes[b]? = some n' ∧
      (run s evs).log = s.log ∧ n'.have' = n.have' ∧ n'.phase = .up ∧ n'.pos = n.have' := by
  intro k
  induction k with
  | zero =>
    intro s n h hn hp hk
    refine ⟨[], n, by simp, rfl, hn, rfl, rfl, hp, ?_⟩
    have h1 := (h.nodes b n hn).applied_le (by rw [hp]; simp)
    have h2 := (h.nodes b n hn).base_le
    unfold Node.pos at *
    omega
  | succ k ih =>
    intro s n h hn hp hk
    have hno := h.nodes b n hn
    by_cases hlt : n.pos < n.have'
    · have hlen := hno.have_le
      have he : s.log[n.pos]? = some s.log[n.pos] := List.getElem?_eq_getElem (by omega)
      have hok : okEv s (.apply b true) = true := by
        unfold okEv
        dsimp only
        rw [hn]
        dsimp only
        rw [he]
        simp
      have hstep : step s (.apply b true) =
          { s with nodes := s.nodes.set b (applyEntry n s.log[n.pos] true) } := by
        unfold step
        dsimp only
        rw [hn]
        dsimp only
        rw [if_pos ⟨hp, hlt⟩, he]
      have hget : (step s (.apply b true)).nodes[b]? = some (applyEntry n s.log[n.pos] true) := by
        rw [hstep]
        dsimp only
        rw [List.getElem?_set_self (List.getElem?_eq_some_iff.1 hn).1]
      have hc : n.blank = false ∧ Close s.cfs v s.log n n.pos := by
        have hst := hno.st
        unfold StOk at hst
        rw [hp] at hst
        rcases hst with h | ⟨h1, _, h3⟩
        · exact h
        · have := (hno.blank0 h1).2.2 h3; omega
      obtain ⟨a1, a2, a3, _⟩ := hc.2.apply h.log he true (fun _ _ => rfl)
      have hh : (applyEntry n s.log[n.pos] true).have' = n.have' := by
        unfold applyEntry
        dsimp only
        by_cases hev : s.log[n.pos].version = n.version
        · rw [if_neg (by simp [hev])]
          cases s.log[n.pos].cmd with
          | split key => dsimp only; split <;> rfl
          | txnDeleteRange r => rfl
          | _ => rfl
        · rw [if_pos (by simpa using hev)]
      have hpos : (applyEntry n s.log[n.pos] true).pos = n.pos + 1 := by
        unfold Node.pos at *; rw [a2, a3]; omega
      obtain ⟨evs, n', e1, e2, e3, e4, e5, e6, e7⟩ :=
        ih (step s (.apply b true)) _ (h.step _ hok) hget (by rw [a1]; exact hp) (by rw [hh, hpos]; omega)
      refine ⟨.apply b true :: evs, n', ?_, ?_, e3, ?_, by rw [e5, hh], e6, by rw [e7, hh]⟩
      · intro e he
        rcases List.mem_cons.1 he with h | h
        · exact h
        · exact e1 e h
      · unfold okRun
        rw [hok, e2]; rfl
      · change (run (step s (.apply b true)) evs).log = s.log
        rw [e4, hstep]
    · refine ⟨[], n, by simp, rfl, hn, rfl, rfl, hp, ?_⟩
      have h1 := hno.applied_le (by rw [hp]; simp)
      have h2 := hno.base_le
      unfold Node.pos at *
      omega

theorem load_up {v : View} {s : Cluster} (h : Inv v s) {b : Nat} {n : Node} (hn : s.nodes[b]? = some n)
    {pc : Pc} (hp : n.phase = .load pc) :
    ∃ evs n', (∀ e ∈ evs, e = Ev.load b) ∧ okRun s evs = true ∧ (run s evs).nodes[b]? = some n' ∧
      (run s evs).log = s.log ∧ n'.have' = n.have' ∧ n'.phase = .up := by
  have hst := (h.nodes b n hn).st
  unfold StOk at hst
  rw [hp] at hst
  have : ∃ sn, n.inst = some sn := by
    cases pc <;> (obtain ⟨sn, hs, _⟩ := hst; exact ⟨sn, hs⟩)
  obtain ⟨sn, hi⟩ := this
  obtain ⟨evs, n', e1, e2, e3, e4, e5, e6, _⟩ := load_ends b _ s n sn pc (Nat.le_refl _) hn hp hi
  exact ⟨evs, n', e1, e2, e3, e4, e5, e6⟩

theorem goes_up {v : View} {s : Cluster} (h : Inv v s) {b : Nat} {n : Node} (hn : s.nodes[b]? = some n) :
    ∃ evs n', (∀ e ∈ evs, ownEv b e = true) ∧ okRun s evs = true ∧ (run s evs).nodes[b]? = some n' ∧
      (run s evs).log = s.log ∧ n'.have' = n.have' ∧ n'.phase = .up := by
  cases hp : n.phase with
  | up => exact ⟨[], n, by simp, rfl, hn, rfl, rfl, hp⟩
  | load pc =>
    obtain ⟨evs, n', e1, e2, e3, e4, e5, e6⟩ := load_up h hn hp
    exact ⟨evs, n', fun e he => by rw [e1 e he]; simp [ownEv], e2, e3, e4, e5, e6⟩
  | down =>
    have hok : okEv s (.start b) = true := rfl
    have hget : (step s (.start b)).nodes[b]? = some (start n) := by
      unfold step; exact onNode_get hn _
    have h2 := h.step _ hok
    have hh : (start n).have' = n.have' ∧ ((start n).phase = .up ∨ (start n).phase = .load .check) := by
      unfold start
      rw [hp]
      cases n.inst with
      | none => exact ⟨rfl, .inl rfl⟩
      | some sn =>
        dsimp only
        by_cases hlt : n.saved < sn.index
        · rw [if_pos hlt]; exact ⟨rfl, .inr rfl⟩
        · rw [if_neg hlt]; exact ⟨rfl, .inl rfl⟩
    rcases hh.2 with hu | hl
    · exact ⟨[.start b], _, by simp [ownEv], rfl, hget, rfl, hh.1, hu⟩
    · obtain ⟨evs, n', e1, e2, e3, e4, e5, e6⟩ := load_up h2 hget hl
      refine ⟨.start b :: evs, n', ?_, ?_, e3, e4, by rw [e5, hh.1], e6⟩
      · intro e he
        rcases List.mem_cons.1 he with h | h
        · rw [h]; simp [ownEv]
        · rw [e1 e h]; simp [ownEv]
      · unfold okRun; rw [e2]; rfl

theorem catches_up {v : View} {s : Cluster} (h : Inv v s) {b : Nat} {n : Node} (hn : s.nodes[b]? = some n) :
    ∃ evs n', (∀ e ∈ evs, ownEv b e = true) ∧ okRun s evs = true ∧ (run s evs).nodes[b]? = some n' ∧
      (run s evs).log = s.log ∧ n'.phase = .up ∧ n'.pos = n.have' := by
  obtain ⟨evs, n1, e1, e2, e3, e4, e5, e6⟩ := goes_up h hn
  obtain ⟨evs', n', f1, f2, f3, f4, f5, f6, f7⟩ := apply_all b _ _ n1 (h.run e2) e3 e6 (Nat.le_refl _)
  refine ⟨evs ++ evs', n', ?_, ?_, ?_, ?_, f6, by rw [f7, e5]⟩
  · intro e he
    rcases List.mem_append.1 he with h | h
    · exact e1 e h
    · rw [f1 e h]; simp [ownEv]
  · rw [okRun_append, e2, f2]; rfl
  · rw [run_append]; exact f3
  · rw [run_append, f4, e4]

end Verif.Replica
