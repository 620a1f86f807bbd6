import Verif.TsCache.Model

/-! # Timestamp cache: invariants over all interleavings -/

namespace Verif.TsCache

/-- The last batch linked into the live list. -/
def State.lst (s : State) : Nat :=
  match s.worker with
  | .idle => s.size - 1
  | .physical _ => s.size - 1
  | _ => s.size - 2

/-- Batches removed from the live list whose `next` was cleared (or batch 0). -/
def DL (s : State) (x : Nat) : Prop := x < s.head ∧ ∀ i a, (s.thread i).pc ≠ .deadClear a x

/-- What a thread knows. -/
def PcOk (s : State) : Pc → Prop
  | .idle | .loadHead _ | .minLoad _ | .minStore _ => True
  | .loadTail _ h => 1 ≤ h ∧ h ≤ s.head
  | .loadNext _ h t => 1 ≤ h ∧ h ≤ s.head ∧ h ≤ t ∧ t ≤ s.tail
  | .stale _ h t n | .fetch _ h t n | .advance _ h t n => 1 ≤ h ∧ h ≤ s.head ∧ h ≤ t ∧ t ≤ s.tail ∧
      ∀ m, n = some m → h = s.head → m = h + 1 ∧ (s.batch h).next = some (h + 1)
  | .check _ h t n ts => 1 ≤ h ∧ h ≤ s.head ∧ h ≤ t ∧ t ≤ s.tail ∧
      (∀ m, n = some m → h = s.head → m = h + 1 ∧ (s.batch h).next = some (h + 1)) ∧
      (ts = 0 ∨ ((s.batch h).first ≤ ts ∧ ts < (s.batch h).cur ∧ ts < (s.batch h).last))
  | .deadClear _ h => 1 ≤ h ∧ h < s.head
  | .deadTail _ h => DL s h
  | .deadNext _ h d => DL s h ∧ DL s d
  | .deadAgain _ h d n | .deadLink _ h d n => DL s h ∧ DL s d ∧ ∀ m, n = some m → DL s m

/-- What the worker knows. -/
def WOk (s : State) : Wpc → Prop
  | .idle => True
  | .physical _ => True
  | .loadTail b => b + 1 = s.size ∧ 3 ≤ s.size
  | .loadNext b t => b + 1 = s.size ∧ 3 ≤ s.size ∧ t ≤ s.tail
  | .again b t n => b + 1 = s.size ∧ 3 ≤ s.size ∧ t ≤ s.tail ∧ (n = none → t = s.tail → t = s.lst) ∧
      (∀ m, n = some m → s.head ≤ t → m = t + 1 ∧ t < s.lst)
  | .link b t n => b + 1 = s.size ∧ 3 ≤ s.size ∧ t ≤ s.tail ∧ (n = none → t = s.lst) ∧
      (∀ m, n = some m → s.head ≤ t → m = t + 1 ∧ t < s.lst)

structure Inv (s : State) : Prop where
  size : 2 ≤ s.size
  head1 : 1 ≤ s.head
  headTail : s.head ≤ s.tail
  tailLst : s.tail ≤ s.lst
  live : ∀ n, s.head ≤ n → n < s.lst → (s.batch n).next = some (n + 1)
  ends : ∀ n, s.lst ≤ n → (s.batch n).next = none
  dead : ∀ x, DL s x → ∀ m, (s.batch x).next = some m → DL s m
  deadTail : DL s s.deadTail
  clear : ∀ i j a b h, (s.thread i).pc = .deadClear a h → (s.thread j).pc = .deadClear b h → i = j
  pc : ∀ i, PcOk s (s.thread i).pc
  worker : WOk s s.worker
  cur : ∀ n, (s.batch n).first ≤ (s.batch n).cur
  held : ∀ i j a h t n ts a' t' n' ts', (s.thread i).pc = .check a h t n ts →
    (s.thread j).pc = .check a' h t' n' ts' → ts ≠ 0 → i ≠ j → ts ≠ ts'
  called : ∀ i, (s.thread i).called ≤ s.time

theorem Inv.lst_lt {s : State} (h : Inv s) : s.lst < s.size := by
  have := h.size
  unfold State.lst
  split <;> omega

/-- How the state may change under a thread that does not act. -/
structure Grow (s s' : State) : Prop where
  head : s.head ≤ s'.head
  tail : s.tail ≤ s'.tail
  batch : ∀ n, n < s.size → (s'.batch n).first = (s.batch n).first ∧ (s'.batch n).last = (s.batch n).last ∧
    (s.batch n).cur ≤ (s'.batch n).cur
  next : ∀ n m, s'.head ≤ n → (s.batch n).next = some m → (s'.batch n).next = some m
  dl : ∀ x, DL s x → DL s' x

theorem PcOk.grow {s s' : State} (g : Grow s s') (hs : s.head < s.size) {pc : Pc} (h : PcOk s pc) : PcOk s' pc := by
  have g1 := g.head
  have g2 := g.tail
  have key : ∀ (h : Nat) (n : Option Nat), h ≤ s.head →
      (∀ m, n = some m → h = s.head → m = h + 1 ∧ (s.batch h).next = some (h + 1)) →
      (∀ m, n = some m → h = s'.head → m = h + 1 ∧ (s'.batch h).next = some (h + 1)) := by
    intro h n h1 h2 m h3 h4
    have h5 := h2 m h3 (by omega)
    exact ⟨h5.1, g.next h _ (by omega) h5.2⟩
  cases pc with
  | idle => trivial
  | loadHead a => trivial
  | minLoad v => trivial
  | minStore v => trivial
  | loadTail a h0 => exact ⟨h.1, by have := h.2; omega⟩
  | loadNext a h0 t => obtain ⟨h1, h2, h3, h4⟩ := h; exact ⟨h1, by omega, h3, by omega⟩
  | stale a h0 t n => obtain ⟨h1, h2, h3, h4, h5⟩ := h; exact ⟨h1, by omega, h3, by omega, key h0 n h2 h5⟩
  | fetch a h0 t n => obtain ⟨h1, h2, h3, h4, h5⟩ := h; exact ⟨h1, by omega, h3, by omega, key h0 n h2 h5⟩
  | advance a h0 t n => obtain ⟨h1, h2, h3, h4, h5⟩ := h; exact ⟨h1, by omega, h3, by omega, key h0 n h2 h5⟩
  | check a h0 t n ts =>
    obtain ⟨h1, h2, h3, h4, h5, h6⟩ := h
    refine ⟨h1, by omega, h3, by omega, key h0 n h2 h5, ?_⟩
    obtain ⟨b1, b2, b3⟩ := g.batch h0 (by omega)
    rw [b1, b2]
    rcases h6 with h6 | ⟨h6, h7, h8⟩
    · exact Or.inl h6
    · exact Or.inr ⟨h6, by omega, h8⟩
  | deadClear a h0 => exact ⟨h.1, by have := h.2; omega⟩
  | deadTail a h0 => exact g.dl _ h
  | deadNext a h0 d => exact ⟨g.dl _ h.1, g.dl _ h.2⟩
  | deadAgain a h0 d n => exact ⟨g.dl _ h.1, g.dl _ h.2.1, fun m hm => g.dl _ (h.2.2 m hm)⟩
  | deadLink a h0 d n => exact ⟨g.dl _ h.1, g.dl _ h.2.1, fun m hm => g.dl _ (h.2.2 m hm)⟩

theorem Inv.init : Inv {} where
  size := by simp
  head1 := by simp
  headTail := by simp
  tailLst := by simp [State.lst]
  live := by intro n h1 h2; simp [State.lst] at h1 h2; omega
  ends := by simp
  dead := by simp
  deadTail := ⟨by simp, by simp⟩
  clear := by simp
  pc := by intro i; simp [PcOk]
  worker := by simp [WOk]
  cur := by simp
  held := by simp
  called := by simp

theorem setPc_pc (s : State) (i : Nat) (pc : Pc) (j : Nat) :
    ((s.setPc i pc).thread j).pc = if j = i then pc else (s.thread j).pc := by
  simp only [State.setPc]; split <;> rfl

theorem setPc_called (s : State) (i : Nat) (pc : Pc) (j : Nat) :
    ((s.setPc i pc).thread j).called = (s.thread j).called := by
  simp only [State.setPc]
  split
  · rename_i h; rw [h]
  · rfl

/-- Only the program counter of thread `i` changes, not into `deadClear`. -/
theorem DL.setPc {s : State} {i : Nat} {pc : Pc} {x : Nat} (h : DL s x) (hp : ∀ a, pc ≠ .deadClear a x) :
    DL (s.setPc i pc) x := by
  refine ⟨h.1, ?_⟩
  intro j a
  rw [setPc_pc]
  split
  · exact hp a
  · exact h.2 j a

/-- Thread `i` moves to a program counter that is neither `deadClear` nor `check`, and
the shared state changes from `s` to `s'`. -/
theorem Inv.move {s s' : State} (h : Inv s) {i : Nat} {pc : Pc}
    (hth : s'.thread = s.thread) (hsz : s'.size = s.size) (hw : s'.worker = s.worker) (htm : s'.time = s.time)
    (hh : s.head ≤ s'.head) (ht : s.tail ≤ s'.tail) (hht : s'.head ≤ s'.tail) (htl : s'.tail ≤ s.lst)
    (hb : ∀ n, (s'.batch n).first = (s.batch n).first ∧ (s'.batch n).last = (s.batch n).last ∧
      (s.batch n).cur ≤ (s'.batch n).cur)
    (hn : ∀ n, s'.head ≤ n → (s'.batch n).next = (s.batch n).next)
    (hpc : PcOk (s'.setPc i pc) pc)
    (hdt : DL (s'.setPc i pc) s'.deadTail)
    (hdd : ∀ x, DL (s'.setPc i pc) x → ∀ m, (s'.batch x).next = some m → DL (s'.setPc i pc) m)
    (hdl : ∀ x, DL s x → DL (s'.setPc i pc) x)
    (hcl : ∀ j a b x, pc = .deadClear a x → j ≠ i → (s.thread j).pc ≠ .deadClear b x)
    (hck : ∀ a h0 t n ts, pc = .check a h0 t n ts → ts ≠ 0 → ∀ j, j ≠ i →
      ∀ a' t' n' ts', (s.thread j).pc = .check a' h0 t' n' ts' → ts ≠ ts') :
    Inv (s'.setPc i pc) := by
  have hl : (s'.setPc i pc).lst = s.lst := by
    simp only [State.lst, State.setPc, hw, hsz]
  have hpcj : ∀ j, ((s'.setPc i pc).thread j).pc = if j = i then pc else (s.thread j).pc := by
    intro j; rw [setPc_pc, hth]
  have g : Grow s (s'.setPc i pc) :=
    ⟨hh, ht, fun n _ => hb n, fun n m h1 h2 => (hn n h1).trans h2, hdl⟩
  have hhs : s.head < s.size := by have := h.headTail; have := h.tailLst; have := h.lst_lt; omega
  have h1 := h.head1
  refine ⟨?_, ?_, hht, ?_, ?_, ?_, hdd, hdt, ?_, ?_, ?_, ?_, ?_, ?_⟩
  · show 2 ≤ s'.size; rw [hsz]; exact h.size
  · show 1 ≤ s'.head; omega
  · rw [hl]; exact htl
  · intro n h2 h3
    rw [hl] at h3
    have h2' : s'.head ≤ n := h2
    show (s'.batch n).next = _
    rw [hn n h2']
    exact h.live n (by omega) h3
  · intro n h2
    rw [hl] at h2
    show (s'.batch n).next = _
    rw [hn n (by omega)]
    exact h.ends n h2
  · intro j k a b x h2 h3
    rw [hpcj] at h2 h3
    split at h2 <;> split at h3
    · rename_i e1 e2; rw [e1, e2]
    · rename_i e1 e2; exact absurd h3 (hcl k a b x h2 e2)
    · rename_i e1 e2; exact absurd h2 (hcl j b a x h3 e1)
    · exact h.clear j k a b x h2 h3
  · intro j
    rw [hpcj]
    split
    · exact hpc
    · exact (h.pc j).grow g hhs
  · show WOk _ s'.worker
    rw [hw]
    have hwk := h.worker
    have hsz' : (s'.setPc i pc).size = s.size := hsz
    have hh' : s.head ≤ (s'.setPc i pc).head := hh
    have ht' : s.tail ≤ (s'.setPc i pc).tail := ht
    cases hwc : s.worker with
    | idle => trivial
    | physical b => trivial
    | loadTail b => rw [hwc] at hwk; simp only [WOk, hsz'] at hwk ⊢; exact hwk
    | loadNext b t => rw [hwc] at hwk; simp only [WOk, hsz'] at hwk ⊢; omega
    | again b t n =>
      rw [hwc] at hwk; simp only [WOk, hsz', hl] at hwk ⊢
      obtain ⟨w1, w2, w3, w4, w5⟩ := hwk
      exact ⟨w1, w2, by omega, fun e1 e2 => w4 e1 (by omega), fun m e1 e2 => w5 m e1 (by omega)⟩
    | link b t n =>
      rw [hwc] at hwk; simp only [WOk, hsz', hl] at hwk ⊢
      obtain ⟨w1, w2, w3, w4, w5⟩ := hwk
      exact ⟨w1, w2, by omega, w4, fun m e1 e2 => w5 m e1 (by omega)⟩
  · intro n
    show (s'.batch n).first ≤ (s'.batch n).cur
    have := hb n
    have := h.cur n
    omega
  · intro j k a h0 t n ts a' t' n' ts' h2 h3 h4 h5
    rw [hpcj] at h2 h3
    split at h2 <;> split at h3
    · rename_i e1 e2; exact absurd (e1.trans e2.symm) h5
    · rename_i e1 e2; exact hck _ _ _ _ _ h2 h4 k e2 _ _ _ _ h3
    · rename_i e1 e2
      by_cases hz : ts' = 0
      · rw [hz]; exact h4
      · exact (hck _ _ _ _ _ h3 hz j e1 _ _ _ _ h2).symm
    · exact h.held j k _ _ _ _ _ _ _ _ _ h2 h3 h4 h5
  · intro j
    rw [setPc_called, hth]
    show _ ≤ s'.time
    rw [htm]
    exact h.called j

/-- The simple case: only the program counter changes, to one that is neither
`deadClear` nor `check`. -/
theorem Inv.pcOnly {s : State} (h : Inv s) {i : Nat} {pc : Pc} (hpc : PcOk (s.setPc i pc) pc)
    (h1 : ∀ a x, pc ≠ .deadClear a x) (h2 : ∀ a x t n ts, pc ≠ .check a x t n ts)
    (h3 : ∀ a x, (s.thread i).pc ≠ .deadClear a x) : Inv (s.setPc i pc) := by
  have back : ∀ x, DL (s.setPc i pc) x → DL s x := by
    intro x hx
    refine ⟨hx.1, ?_⟩
    intro j a
    by_cases hj : j = i
    · rw [hj]; exact h3 a x
    · have := hx.2 j a
      rw [setPc_pc, if_neg hj] at this
      exact this
  have fwd : ∀ x, DL s x → DL (s.setPc i pc) x := fun x hx => hx.setPc (fun a => h1 a x)
  exact h.move rfl rfl rfl rfl (Nat.le_refl _) (Nat.le_refl _) h.headTail h.tailLst
    (fun n => ⟨rfl, rfl, Int.le_refl _⟩) (fun n _ => rfl) hpc (fwd _ h.deadTail)
    (fun x hx m hm => fwd m (h.dead x (back x hx) m hm)) fwd
    (fun j a b x e => absurd e (h1 a x)) (fun a h0 t n ts e => absurd e (h2 a h0 t n ts))

theorem setBatch_batch (s : State) (n : Nat) (b : Batch) (m : Nat) :
    (s.setBatch n b).batch m = if m = n then b else s.batch m := rfl

theorem Inv.act {s : State} (h : Inv s) (i : Nat) (now : Int) (weak : Bool) : Inv (s.act i now weak).1 := by
  have hp := h.pc i
  have hht := h.headTail
  have htl := h.tailLst
  unfold State.act
  cases hpc : (s.thread i).pc with
  | idle => exact h
  | loadHead a =>
    refine h.pcOnly ⟨h.head1, Nat.le_refl _⟩ ?_ ?_ ?_ <;> simp [hpc]
  | loadTail a h0 =>
    rw [hpc] at hp
    obtain ⟨h1, h2⟩ := hp
    refine h.pcOnly ⟨h1, h2, (by omega : h0 ≤ s.tail), Nat.le_refl _⟩ ?_ ?_ ?_ <;> simp [hpc]
  | loadNext a h0 t =>
    rw [hpc] at hp
    obtain ⟨h1, h2, h3, h4⟩ := hp
    refine h.pcOnly ⟨h1, h2, h3, h4, ?_⟩ ?_ ?_ ?_
    · intro m hm he
      have he' : h0 = s.head := he
      show m = h0 + 1 ∧ (s.batch h0).next = some (h0 + 1)
      by_cases hl : h0 < s.lst
      · have := h.live h0 (by omega) hl
        rw [this] at hm
        cases hm
        exact ⟨rfl, this⟩
      · have := h.ends h0 (by omega)
        rw [this] at hm; cases hm
    all_goals simp [hpc]
  | stale a h0 t n =>
    rw [hpc] at hp
    simp only
    split
    · refine h.pcOnly hp ?_ ?_ ?_ <;> simp [hpc]
    · refine h.pcOnly hp ?_ ?_ ?_ <;> simp [hpc]
  | fetch a h0 t n =>
    rw [hpc] at hp
    obtain ⟨h1, h2, h3, h4, h5⟩ := hp
    simp only
    have bk : ∀ x, DL ((s.setBatch h0 { s.batch h0 with cur := (s.batch h0).cur + 1 }).setPc i
        (.check a h0 t n (if (s.batch h0).cur < (s.batch h0).last then (s.batch h0).cur else 0))) x ↔ DL s x := by
      intro x
      constructor
      · intro hx
        refine ⟨hx.1, ?_⟩
        intro j b
        by_cases hj : j = i
        · rw [hj, hpc]; simp
        · have := hx.2 j b
          rw [setPc_pc, if_neg hj] at this
          exact this
      · intro hx
        refine ⟨hx.1, ?_⟩
        intro j b
        rw [setPc_pc]
        split
        · simp
        · exact hx.2 j b
    have bnext : ∀ x, ((s.setBatch h0 { s.batch h0 with cur := (s.batch h0).cur + 1 }).batch x).next = (s.batch x).next := by
      intro x; rw [setBatch_batch]; split
      · rename_i e; rw [e]
      · rfl
    have hcur := h.cur h0
    refine h.move rfl rfl rfl rfl (Nat.le_refl _) (Nat.le_refl _) hht htl ?_ (fun x _ => bnext x) ?_ ?_ ?_ ?_ ?_ ?_
    · intro x
      rw [setBatch_batch]
      split
      · rename_i e; subst e; exact ⟨rfl, rfl, by simp only; omega⟩
      · exact ⟨rfl, rfl, Int.le_refl _⟩
    · refine ⟨h1, h2, h3, h4, ?_, ?_⟩
      · intro m hm he
        have := h5 m hm he
        refine ⟨this.1, ?_⟩
        show ((s.setBatch h0 { s.batch h0 with cur := (s.batch h0).cur + 1 }).batch h0).next = _
        rw [bnext]; exact this.2
      · show _ ∨ (((s.setBatch h0 { s.batch h0 with cur := (s.batch h0).cur + 1 }).batch h0).first ≤ _ ∧
          _ < ((s.setBatch h0 { s.batch h0 with cur := (s.batch h0).cur + 1 }).batch h0).cur ∧
          _ < ((s.setBatch h0 { s.batch h0 with cur := (s.batch h0).cur + 1 }).batch h0).last)
        rw [setBatch_batch, if_pos rfl]
        by_cases hl : (s.batch h0).cur < (s.batch h0).last
        · rw [if_pos hl]
          exact Or.inr ⟨hcur, by simp only; omega, hl⟩
        · rw [if_neg hl]; exact Or.inl rfl
    · rw [bk]; exact h.deadTail
    · intro x hx m hm
      rw [bk] at hx ⊢
      rw [bnext] at hm
      exact h.dead x hx m hm
    · intro x hx; rw [bk]; exact hx
    · intro j b c x e; cases e
    · intro a' h0' t' n' ts' e hts j hj a'' t'' n'' ts'' e2
      cases e
      have hpj := h.pc j
      rw [e2] at hpj
      obtain ⟨_, _, _, _, _, p6⟩ := hpj
      by_cases hl : (s.batch h0).cur < (s.batch h0).last
      · rw [if_pos hl] at hts ⊢
        rcases p6 with p6 | ⟨_, p6, _⟩
        · rw [p6]; exact hts
        · omega
      · rw [if_neg hl] at hts; exact absurd rfl hts
  | check a h0 t n ts =>
    rw [hpc] at hp
    obtain ⟨h1, h2, h3, h4, h5, h6⟩ := hp
    simp only
    split
    · refine h.pcOnly trivial ?_ ?_ ?_ <;> simp [hpc]
    · refine h.pcOnly ⟨h1, h2, h3, h4, h5⟩ ?_ ?_ ?_ <;> simp [hpc]
  | advance a h0 t n =>
    rw [hpc] at hp
    obtain ⟨h1, h2, h3, h4, h5⟩ := hp
    cases n with
    | none =>
      simp only
      refine h.pcOnly trivial ?_ ?_ ?_ <;> simp [hpc]
    | some m =>
      simp only
      split
      · rename_i e
        subst e
        split
        · rename_i hc
          have hhd : h0 = s.head := by omega
          obtain ⟨hm, hnx⟩ := h5 m rfl hhd
          have hlt : h0 < s.lst := by
            rcases Nat.lt_or_ge h0 s.lst with hl | hl
            · exact hl
            · rw [h.ends h0 hl] at hnx; cases hnx
          have bk : ∀ x, DL ({ s with tail := m }.setPc i (.loadHead a)) x ↔ DL s x := by
            intro x
            constructor
            · intro hx
              refine ⟨hx.1, ?_⟩
              intro j b
              by_cases hj : j = i
              · rw [hj, hpc]; simp
              · have := hx.2 j b
                rw [setPc_pc, if_neg hj] at this
                exact this
            · intro hx
              refine ⟨hx.1, ?_⟩
              intro j b
              rw [setPc_pc]
              split
              · simp
              · exact hx.2 j b
          refine h.move rfl rfl rfl rfl (Nat.le_refl _) ?_ ?_ ?_ (fun n => ⟨rfl, rfl, Int.le_refl _⟩) (fun n _ => rfl) trivial
            ((bk _).2 h.deadTail) ?_ (fun x hx => (bk x).2 hx) (fun j a b x e => by cases e) (fun a h0 t n ts e => by cases e)
          · show s.tail ≤ m; omega
          · show s.head ≤ m; omega
          · show m ≤ s.lst; omega
          · intro x hx m' hm'
            rw [bk] at hx ⊢
            exact h.dead x hx m' hm'
        · refine h.pcOnly trivial ?_ ?_ ?_ <;> simp [hpc]
      · rename_i hne
        split
        · rename_i hc
          have hhd : h0 = s.head := hc.1.symm
          obtain ⟨hm, hnx⟩ := h5 m rfl hhd
          have fwd : ∀ x, DL s x → DL ({ s with head := m }.setPc i (.deadClear a h0)) x := by
            intro x hx
            refine ⟨?_, ?_⟩
            · show x < m; have := hx.1; omega
            · intro j b
              rw [setPc_pc]
              split
              · intro e; cases e; have := hx.1; omega
              · exact hx.2 j b
          have bk : ∀ x, DL ({ s with head := m }.setPc i (.deadClear a h0)) x → DL s x := by
            intro x hx
            have hx1 : x < m := hx.1
            have hx2 : x ≠ h0 := by
              intro e
              have := hx.2 i a
              rw [setPc_pc, if_pos rfl] at this
              exact this (by rw [e])
            refine ⟨by omega, ?_⟩
            intro j b
            by_cases hj : j = i
            · rw [hj, hpc]; simp
            · have := hx.2 j b
              rw [setPc_pc, if_neg hj] at this
              exact this
          refine h.move rfl rfl rfl rfl ?_ (Nat.le_refl _) ?_ htl (fun n => ⟨rfl, rfl, Int.le_refl _⟩) (fun n _ => rfl) ?_
            (fwd _ h.deadTail) (fun x hx m' hm' => fwd _ (h.dead x (bk x hx) m' hm')) fwd ?_ (fun a h0 t n ts e => by cases e)
          · show s.head ≤ m; omega
          · show m ≤ s.tail; omega
          · refine ⟨h1, ?_⟩
            show h0 < m; omega
          · intro j a' b x e hj
            cases e
            intro e2
            have := h.pc j
            rw [e2] at this
            have := this.2
            omega
        · refine h.pcOnly trivial ?_ ?_ ?_ <;> simp [hpc]
  | deadClear a h0 =>
    rw [hpc] at hp
    obtain ⟨h1, h2⟩ := hp
    simp only
    have dlh : DL ((s.setBatch h0 { s.batch h0 with next := none }).setPc i (.deadTail a h0)) h0 := by
      refine ⟨h2, ?_⟩
      intro j b
      rw [setPc_pc]
      split
      · simp
      · rename_i hj
        intro e
        exact hj (h.clear j i b a h0 e hpc)
    have fwd : ∀ x, DL s x → DL ((s.setBatch h0 { s.batch h0 with next := none }).setPc i (.deadTail a h0)) x := by
      intro x hx
      refine ⟨hx.1, ?_⟩
      intro j b
      rw [setPc_pc]
      split
      · simp
      · exact hx.2 j b
    have bk : ∀ x, x ≠ h0 → DL ((s.setBatch h0 { s.batch h0 with next := none }).setPc i (.deadTail a h0)) x → DL s x := by
      intro x hne hx
      refine ⟨hx.1, ?_⟩
      intro j b
      by_cases hj : j = i
      · rw [hj, hpc]; intro e; cases e; exact hne rfl
      · have := hx.2 j b
        rw [setPc_pc, if_neg hj] at this
        exact this
    refine h.move rfl rfl rfl rfl (Nat.le_refl _) (Nat.le_refl _) hht htl ?_ ?_ dlh (fwd _ h.deadTail) ?_ fwd
      (fun j a b x e => by cases e) (fun a h0 t n ts e => by cases e)
    · intro n
      rw [setBatch_batch]
      split
      · rename_i e; subst e; exact ⟨rfl, rfl, Int.le_refl _⟩
      · exact ⟨rfl, rfl, Int.le_refl _⟩
    · intro n hn
      have hn' : s.head ≤ n := hn
      rw [setBatch_batch, if_neg (by omega)]
    · intro x hx m hm
      rw [setBatch_batch] at hm
      split at hm
      · cases hm
      · rename_i hne
        exact fwd _ (h.dead x (bk x hne hx) m hm)
  | deadTail a h0 =>
    rw [hpc] at hp
    simp only
    refine h.pcOnly ⟨DL.setPc hp (by simp), h.deadTail.setPc (by simp)⟩ ?_ ?_ ?_ <;> simp [hpc]
  | deadNext a h0 d =>
    rw [hpc] at hp
    simp only
    refine h.pcOnly ⟨hp.1.setPc (by simp), hp.2.setPc (by simp), fun m hm => (h.dead d hp.2 m hm).setPc (by simp)⟩ ?_ ?_ ?_ <;>
      simp [hpc]
  | deadAgain a h0 d n =>
    rw [hpc] at hp
    simp only
    split
    · refine h.pcOnly ⟨hp.1.setPc (by simp), hp.2.1.setPc (by simp), fun m hm => (hp.2.2 m hm).setPc (by simp)⟩ ?_ ?_ ?_ <;>
        simp [hpc]
    · refine h.pcOnly (DL.setPc hp.1 (by simp)) ?_ ?_ ?_ <;> simp [hpc]
  | deadLink a h0 d n =>
    rw [hpc] at hp
    obtain ⟨p1, p2, p3⟩ := hp
    cases n with
    | some m =>
      simp only
      split
      · have bk : ∀ x, DL ({ s with deadTail := m }.setPc i (.deadTail a h0)) x ↔ DL s x := by
          intro x
          constructor
          · intro hx
            refine ⟨hx.1, ?_⟩
            intro j b
            by_cases hj : j = i
            · rw [hj, hpc]; simp
            · have := hx.2 j b
              rw [setPc_pc, if_neg hj] at this
              exact this
          · intro hx
            refine ⟨hx.1, ?_⟩
            intro j b
            rw [setPc_pc]
            split
            · simp
            · exact hx.2 j b
        refine h.move rfl rfl rfl rfl (Nat.le_refl _) (Nat.le_refl _) hht htl (fun n => ⟨rfl, rfl, Int.le_refl _⟩) (fun n _ => rfl)
          ((bk _).2 p1) ((bk _).2 (p3 m rfl)) ?_ (fun x hx => (bk x).2 hx) (fun j a b x e => by cases e)
          (fun a h0 t n ts e => by cases e)
        intro x hx m' hm'
        rw [bk] at hx ⊢
        exact h.dead x hx m' hm'
      · refine h.pcOnly (DL.setPc p1 (by simp)) ?_ ?_ ?_ <;> simp [hpc]
    | none =>
      simp only
      split
      · have bk : ∀ x, DL ((s.setBatch d { s.batch d with next := some h0 }).setPc i (.loadHead a)) x ↔ DL s x := by
          intro x
          constructor
          · intro hx
            refine ⟨hx.1, ?_⟩
            intro j b
            by_cases hj : j = i
            · rw [hj, hpc]; simp
            · have := hx.2 j b
              rw [setPc_pc, if_neg hj] at this
              exact this
          · intro hx
            refine ⟨hx.1, ?_⟩
            intro j b
            rw [setPc_pc]
            split
            · simp
            · exact hx.2 j b
        refine h.move rfl rfl rfl rfl (Nat.le_refl _) (Nat.le_refl _) hht htl ?_ ?_ trivial ((bk _).2 h.deadTail) ?_
          (fun x hx => (bk x).2 hx) (fun j a b x e => by cases e) (fun a h0 t n ts e => by cases e)
        · intro n
          rw [setBatch_batch]
          split
          · rename_i e; subst e; exact ⟨rfl, rfl, Int.le_refl _⟩
          · exact ⟨rfl, rfl, Int.le_refl _⟩
        · intro n hn
          have hn' : s.head ≤ n := hn
          have := p2.1
          rw [setBatch_batch, if_neg (by omega)]
        · intro x hx m hm
          rw [bk] at hx ⊢
          rw [setBatch_batch] at hm
          split at hm
          · cases hm; exact p1
          · exact h.dead x hx m hm
      · refine h.pcOnly (DL.setPc p1 (by simp)) ?_ ?_ ?_ <;> simp [hpc]
  | minLoad v =>
    simp only
    split
    · refine h.pcOnly trivial ?_ ?_ ?_ <;> simp [hpc]
    · have h' : Inv { s with mins := s.mins ++ [(v, s.time)] } :=
        ⟨h.size, h.head1, h.headTail, h.tailLst, h.live, h.ends, h.dead, h.deadTail, h.clear, h.pc, h.worker, h.cur, h.held, h.called⟩
      refine h'.pcOnly trivial ?_ ?_ ?_ <;> simp [hpc]
  | minStore v =>
    have h' : Inv { s with minValid := v, mins := s.mins ++ [(v, s.time)] } :=
      ⟨h.size, h.head1, h.headTail, h.tailLst, h.live, h.ends, h.dead, h.deadTail, h.clear, h.pc, h.worker, h.cur, h.held, h.called⟩
    refine h'.pcOnly trivial ?_ ?_ ?_ <;> simp [hpc]

theorem Inv.work {s : State} (h : Inv s) (weak : Bool) : Inv (s.work weak) := by
  have hw := h.worker
  have hsz := h.size
  have hht := h.headTail
  have htl := h.tailLst
  have hhs : s.head < s.size := by have := h.lst_lt; omega
  -- states that differ only in the worker and keep `lst`
  have same : ∀ w, ({ s with worker := w } : State).lst = s.lst → WOk { s with worker := w } w → Inv { s with worker := w } := by
    intro w hl hw'
    exact ⟨h.size, h.head1, h.headTail, by rw [hl]; exact h.tailLst, by rw [hl]; exact h.live, by rw [hl]; exact h.ends,
      h.dead, h.deadTail, h.clear, fun i => (h.pc i).grow ⟨Nat.le_refl _, Nat.le_refl _, fun n _ => ⟨rfl, rfl, Int.le_refl _⟩,
        fun n m _ hm => hm, fun x hx => hx⟩ hhs, hw', h.cur, h.held, h.called⟩
  unfold State.work
  cases hwc : s.worker with
  | idle => exact h
  | loadTail b =>
    rw [hwc] at hw
    refine same _ (by simp [State.lst, hwc]) ⟨hw.1, hw.2, Nat.le_refl _⟩
  | loadNext b t =>
    rw [hwc] at hw
    obtain ⟨w1, w2, w3⟩ := hw
    have hl : s.lst = s.size - 2 := by simp [State.lst, hwc]
    have hl' : ({ s with worker := .again b t (s.batch t).next } : State).lst = s.lst := by simp [State.lst, hwc]
    refine same _ hl' ⟨w1, w2, w3, ?_, ?_⟩
    · intro e1 e2
      have e2' : t = s.tail := e2
      rw [hl']
      rcases Nat.lt_or_ge t s.lst with hlt | hge
      · have := h.live t (by omega) hlt
        rw [e1] at this; cases this
      · omega
    · intro m e1 e2
      have e2' : s.head ≤ t := e2
      rw [hl']
      rcases Nat.lt_or_ge t s.lst with hlt | hge
      · have := h.live t e2' hlt
        rw [e1] at this; cases this
        exact ⟨rfl, hlt⟩
      · rw [h.ends t hge] at e1; cases e1
  | again b t n =>
    rw [hwc] at hw
    obtain ⟨w1, w2, w3, w4, w5⟩ := hw
    simp only
    split
    · rename_i e
      have hl' : ({ s with worker := .link b t n } : State).lst = s.lst := by simp [State.lst, hwc]
      refine same _ hl' ⟨w1, w2, w3, ?_, ?_⟩
      · intro e1; rw [hl']; exact w4 e1 e
      · rw [hl']; exact w5
    · refine same _ (by simp [State.lst, hwc]) ⟨w1, w2⟩
  | link b t n =>
    rw [hwc] at hw
    obtain ⟨w1, w2, w3, w4, w5⟩ := hw
    have hl : s.lst = s.size - 2 := by simp [State.lst, hwc]
    cases n with
    | some m =>
      simp only
      split
      · rename_i hc
        obtain ⟨e1, e2⟩ := w5 m rfl (by omega)
        have hl' : ({ s with tail := m, worker := .loadTail b } : State).lst = s.lst := by simp [State.lst, hwc]
        refine ⟨h.size, h.head1, ?_, ?_, by rw [hl']; exact h.live, by rw [hl']; exact h.ends,
          h.dead, h.deadTail, h.clear, ?_, ⟨w1, w2⟩, h.cur, h.held, h.called⟩
        · show s.head ≤ m; omega
        · rw [hl']; show m ≤ s.lst; omega
        · intro i
          exact PcOk.grow (s := s) (s' := { s with tail := m, worker := .loadTail b })
            ⟨Nat.le_refl _, (by show s.tail ≤ m; omega), fun n _ => ⟨rfl, rfl, Int.le_refl _⟩, fun n m _ hm => hm,
              fun x hx => hx⟩ hhs (h.pc i)
      · exact same _ (by simp [State.lst, hwc]) ⟨w1, w2⟩
    | none =>
      simp only
      split
      · have ht := w4 rfl
        have hl' : ({ s.setBatch t { s.batch t with next := some b } with worker := .physical b } : State).lst = s.size - 1 := by
          simp [State.lst, State.setBatch]
        have hbn : ∀ x, x ≠ t → (({ s.setBatch t { s.batch t with next := some b } with worker := .physical b } : State).batch x) = s.batch x := by
          intro x hx; simp [State.setBatch, hx]
        have hbt : (({ s.setBatch t { s.batch t with next := some b } with worker := .physical b } : State).batch t) = { s.batch t with next := some b } := by
          simp [State.setBatch]
        have hbv : ∀ x, (({ s.setBatch t { s.batch t with next := some b } with worker := .physical b } : State).batch x).first = (s.batch x).first ∧
            (({ s.setBatch t { s.batch t with next := some b } with worker := .physical b } : State).batch x).last = (s.batch x).last ∧
            (({ s.setBatch t { s.batch t with next := some b } with worker := .physical b } : State).batch x).cur = (s.batch x).cur := by
          intro x
          by_cases hx : x = t
          · subst hx; rw [hbt]; exact ⟨rfl, rfl, rfl⟩
          · rw [hbn x hx]; exact ⟨rfl, rfl, rfl⟩
        refine ⟨h.size, h.head1, h.headTail, ?_, ?_, ?_, ?_, h.deadTail, h.clear, ?_, trivial, ?_, h.held, h.called⟩
        · rw [hl']; show s.tail ≤ _; omega
        · intro x h2 h3
          rw [hl'] at h3
          by_cases hx : x = t
          · subst hx; rw [hbt]; simp only [Option.some.injEq]; omega
          · rw [hbn x hx]; exact h.live x h2 (by omega)
        · intro x h2
          rw [hl'] at h2
          rw [hbn x (by omega)]
          exact h.ends x (by omega)
        · intro x hx m hm
          have hx1 : x < s.head := hx.1
          rw [hbn x (by omega)] at hm
          exact h.dead x hx m hm
        · intro i
          refine PcOk.grow (s := s) (s' := { s.setBatch t { s.batch t with next := some b } with worker := .physical b })
            ⟨Nat.le_refl _, Nat.le_refl _, fun n _ => ⟨(hbv n).1, (hbv n).2.1, Int.le_of_eq (hbv n).2.2.symm⟩, ?_,
              fun x hx => hx⟩ hhs (h.pc i)
          intro x m _ hm
          by_cases hx : x = t
          · subst hx; rw [h.ends x (by omega)] at hm; cases hm
          · rw [hbn x hx]; exact hm
        · intro x
          rw [(hbv x).1, (hbv x).2.2]; exact h.cur x
      · exact same _ (by simp [State.lst, hwc]) ⟨w1, w2⟩
  | physical b =>
    have hl' : ({ s with lastPhysical := (s.batch b).physical, worker := .idle } : State).lst = s.lst := by simp [State.lst, hwc]
    exact ⟨h.size, h.head1, h.headTail, by rw [hl']; exact h.tailLst, by rw [hl']; exact h.live, by rw [hl']; exact h.ends,
      h.dead, h.deadTail, h.clear, fun i => (h.pc i).grow ⟨Nat.le_refl _, Nat.le_refl _, fun n _ => ⟨rfl, rfl, Int.le_refl _⟩,
        fun n m _ hm => hm, fun x hx => hx⟩ hhs, trivial, h.cur, h.held, h.called⟩

theorem Inv.time {s : State} (h : Inv s) (t : Nat) (ht : s.time ≤ t) : Inv { s with time := t } :=
  ⟨h.size, h.head1, h.headTail, h.tailLst, h.live, h.ends, h.dead, h.deadTail, h.clear, h.pc, h.worker, h.cur, h.held,
    fun i => Nat.le_trans (h.called i) ht⟩

theorem Inv.thread {s : State} (h : Inv s) {f : Nat → Thread} {t : Nat} (hf : ∀ j, (f j).pc = (s.thread j).pc)
    (ht : ∀ j, (f j).called ≤ t) : Inv { s with thread := f, time := t } := by
  have hdl : ∀ x, DL { s with thread := f, time := t } x ↔ DL s x := by
    intro x
    unfold DL
    simp only [hf]
  have hhs : s.head < s.size := by have := h.lst_lt; have := h.headTail; have := h.tailLst; omega
  refine ⟨h.size, h.head1, h.headTail, h.tailLst, h.live, h.ends, ?_, (hdl _).2 h.deadTail, ?_, ?_, h.worker, h.cur, ?_, ht⟩
  · intro x hx m hm
    rw [hdl] at hx ⊢
    exact h.dead x hx m hm
  · intro i j a b x
    simp only [hf]
    exact h.clear i j a b x
  · intro i
    simp only [hf]
    exact PcOk.grow (s := s) (s' := { s with thread := f, time := t })
      ⟨Nat.le_refl _, Nat.le_refl _, fun n _ => ⟨rfl, rfl, Int.le_refl _⟩, fun n m _ hm => hm, fun x hx => (hdl x).2 hx⟩ hhs (h.pc i)
  · intro i j
    simp only [hf]
    exact h.held i j

theorem act_time (s : State) (i : Nat) (now : Int) (weak : Bool) : (s.act i now weak).1.time = s.time := by
  unfold State.act
  simp only [State.setPc, State.setBatch]
  split <;> (try split) <;> (try split) <;> (try split) <;> rfl

theorem work_time (s : State) (weak : Bool) : (s.work weak).time = s.time := by
  unfold State.work
  simp only [State.setBatch]
  split <;> (try split) <;> (try split) <;> rfl

theorem Inv.step {s : State} (h : Inv s) (e : Event) : Inv (step s e).1 := by
  cases e with
  | call i after =>
    simp only [TsCache.step]
    split
    · rename_i hi
      have h' := h.pcOnly (i := i) (pc := .loadHead after) trivial (by simp) (by simp) (by simp [hi])
      refine h'.thread (f := fun j => if j = i then ⟨.loadHead after, s.time⟩ else s.thread j) ?_ ?_
      · intro j; rw [setPc_pc]; split <;> rfl
      · intro j
        split
        · exact Nat.le_succ _
        · exact Nat.le_succ_of_le (h.called j)
    · exact h.time _ (Nat.le_succ _)
  | setMin i v =>
    simp only [TsCache.step]
    split
    · rename_i hi
      exact (h.time _ (Nat.le_succ _)).pcOnly trivial (by simp) (by simp) (by simp [hi])
    · exact h.time _ (Nat.le_succ _)
  | act i now weak =>
    exact (h.act i now weak).time _ (by rw [act_time]; exact Nat.le_succ _)
  | push p l c now =>
    simp only [TsCache.step]
    split
    · rename_i hw
      have hhs : s.head < s.size := by have := h.lst_lt; have := h.headTail; have := h.tailLst; omega
      have hl : s.lst = s.size - 1 := by simp [State.lst, hw]
      have hsz := h.size
      generalize hS : ({ ({ s with time := s.time + 1 } : State).setBatch s.size (.new p l c now) with
        size := s.size + 1, worker := .loadTail s.size } : State) = S
      have e1 : S.head = s.head := by rw [← hS]; rfl
      have e2 : S.tail = s.tail := by rw [← hS]; rfl
      have e3 : S.size = s.size + 1 := by rw [← hS]
      have e4 : S.thread = s.thread := by rw [← hS]; rfl
      have e5 : S.lst = s.lst := by rw [← hS, hl]; simp [State.lst]
      have e6 : ∀ x, x ≠ s.size → S.batch x = s.batch x := by
        intro x hx; rw [← hS]; simp [State.setBatch, hx]
      have e7 : S.batch s.size = .new p l c now := by rw [← hS]; simp [State.setBatch]
      have e8 : S.worker = .loadTail s.size := by rw [← hS]
      have e9 : S.deadTail = s.deadTail := by rw [← hS]; rfl
      have e10 : S.time = s.time + 1 := by rw [← hS]; rfl
      have hdl : ∀ x, DL S x ↔ DL s x := by
        intro x; unfold DL; rw [e1, e4]
      show Inv S
      refine ⟨by omega, by rw [e1]; exact h.head1, by rw [e1, e2]; exact h.headTail, by rw [e2, e5]; exact h.tailLst, ?_, ?_, ?_,
        by rw [e9, hdl]; exact h.deadTail, by rw [e4]; exact h.clear, ?_, ?_, ?_, by rw [e4]; exact h.held, ?_⟩
      · intro x h1 h2
        rw [e1] at h1; rw [e5] at h2
        rw [e6 x (by omega)]
        exact h.live x h1 h2
      · intro x h1
        rw [e5] at h1
        by_cases hx : x = s.size
        · rw [hx, e7]; rfl
        · rw [e6 x hx]; exact h.ends x h1
      · intro x hx m hm
        rw [hdl] at hx ⊢
        have := hx.1
        rw [e6 x (by omega)] at hm
        exact h.dead x hx m hm
      · intro i
        rw [e4]
        refine PcOk.grow (s := s) ⟨Nat.le_of_eq e1.symm, Nat.le_of_eq e2.symm, ?_, ?_, fun x hx => (hdl x).2 hx⟩ hhs (h.pc i)
        · intro n hn
          rw [e6 n (by omega)]
          exact ⟨rfl, rfl, Int.le_refl _⟩
        · intro n m _ hm
          by_cases hx : n = s.size
          · rw [hx, h.ends s.size (by omega)] at hm; cases hm
          · rw [e6 n hx]; exact hm
      · rw [e8]
        exact ⟨e3.symm, by omega⟩
      · intro n
        by_cases hx : n = s.size
        · rw [hx, e7]; exact Int.le_refl _
        · rw [e6 n hx]; exact h.cur n
      · intro i
        rw [e4, e10]
        exact Nat.le_succ_of_le (h.called i)
    · exact h.time _ (Nat.le_succ _)
  | work weak =>
    exact (h.work weak).time _ (by rw [work_time]; exact Nat.le_succ _)

end Verif.TsCache
