import Verif.BrTool.Model

/-! # The threads of the backup tool (C109) -/

namespace Verif.BrTool

/-! ## Invariant of a backup -/

/-- What a thread is waiting for. -/
def PC.sending : PC → List Nat
  | .send r => [r]
  | _ => []

/-- What holds of each thread. -/
structure TInv (needExit : Bool) (t : Thr) : Prop where
  split : t.saved ++ t.failed ++ t.pc.sending ++ t.todo = t.regions
  status : t.status = false ↔ t.failed ≠ []
  stop : t.failed ≠ [] → needExit = true ∧ (t.pc = .leave ∨ t.pc = .flagged ∨ t.pc = .done)
  absent : t.started = false → t.saved = [] ∧ t.failed = [] ∧ t.pc = .done

/-- What holds of all. -/
structure Inv (s : St) : Prop where
  thr : ∀ t ∈ s.thr, TInv s.needExit t
  exit : s.needExit = true → ∃ t ∈ s.thr, t.failed ≠ []
  lastF : s.last = false → ∃ t ∈ s.thr, t.failed ≠ []
  lastT : s.last = true → (∀ t ∈ s.thr, t.started = true → t.pc ≠ .done) ∨
    ∃ t ∈ s.thr, t.started = true ∧ t.pc = .done ∧ t.failed = []
  main : s.main ≠ .wait → s.needExit = true ∨ total s.thr ≤ handled s.thr
  fin : s.main = .fin false → ∃ t ∈ s.thr, t.failed ≠ []

theorem set_mem {α : Type} {l : List α} {i : Nat} {a b : α} (h : b ∈ l.set i a) : b ∈ l ∨ b = a :=
  List.mem_or_eq_of_mem_set h

theorem mem_set_of_get {α : Type} {l : List α} {i : Nat} {a t : α} (h : l[i]? = some t) : a ∈ l.set i a := by
  rw [List.getElem?_eq_some_iff] at h
  obtain ⟨hi, _⟩ := h
  exact List.mem_set hi a

theorem mem_set_old {α : Type} {l : List α} {i : Nat} {a t b : α} (h : l[i]? = some t) (hb : b ∈ l) (hne : b ≠ t) :
    b ∈ l.set i a := by
  induction l generalizing i with
  | nil => cases hb
  | cons x l ih =>
    cases i with
    | zero =>
      simp only [List.getElem?_cons_zero, Option.some.injEq] at h
      subst h
      rcases List.mem_cons.1 hb with rfl | hb
      · exact absurd rfl hne
      · exact List.mem_cons_of_mem _ hb
    | succ i =>
      simp only [List.getElem?_cons_succ] at h
      rcases List.mem_cons.1 hb with rfl | hb
      · exact List.mem_cons_self ..
      · exact List.mem_cons_of_mem _ (ih h hb)

theorem sum_set {l : List Thr} {i : Nat} {t t' : Thr} (f : Thr → Nat) (h : l[i]? = some t) (hf : f t ≤ f t') :
    (l.map f).sum ≤ ((l.set i t').map f).sum := by
  induction l generalizing i with
  | nil => cases h
  | cons x l ih =>
    cases i with
    | zero =>
      simp only [List.getElem?_cons_zero, Option.some.injEq] at h
      subst h
      simp only [List.set_cons_zero, List.map_cons, List.sum_cons]
      omega
    | succ i =>
      simp only [List.getElem?_cons_succ] at h
      have := ih h
      simp only [List.set_cons_succ, List.map_cons, List.sum_cons]
      omega

theorem sum_set_eq {l : List Thr} {i : Nat} {t t' : Thr} (f : Thr → Nat) (h : l[i]? = some t) (hf : f t' = f t) :
    ((l.set i t').map f).sum = (l.map f).sum := by
  induction l generalizing i with
  | nil => cases h
  | cons x l ih =>
    cases i with
    | zero =>
      simp only [List.getElem?_cons_zero, Option.some.injEq] at h
      subst h
      simp only [List.set_cons_zero, List.map_cons, List.sum_cons, hf]
    | succ i =>
      simp only [List.getElem?_cons_succ] at h
      simp only [List.set_cons_succ, List.map_cons, List.sum_cons, ih h]

/-- One step of one thread, as far as others are concerned. -/
structure Moves (ne : Bool) (t t' : Thr) (ne' : Bool) (w : Option Bool) : Prop where
  inv : TInv ne' t'
  regions : t'.regions = t.regions
  started : t'.started = t.started
  saved : t.saved.length ≤ t'.saved.length
  failed : t.failed ≠ [] → t'.failed ≠ []
  mono : ne = true → ne' = true
  exit : ne' = true → ne = true ∨ t'.failed ≠ []
  write : w = none ∧ (t'.pc = .done → t' = t) ∨
    ∃ b, w = some b ∧ t'.pc = .done ∧ (b = true ↔ t'.failed = []) ∧ t'.started = true

theorem moves {ne : Bool} {t : Thr} (ok : Bool) (h : TInv ne t) :
    Moves ne t (thrStep ne ok t).1 (thrStep ne ok t).2.1 (thrStep ne ok t).2.2 := by
  have hst : t.pc ≠ .done → t.started = true := by
    intro hp
    cases hs : t.started
    · exact absurd (h.absent hs).2.2 hp
    · rfl
  have hnf : t.pc ≠ .leave → t.pc ≠ .flagged → t.pc ≠ .done → t.failed = [] := by
    intro h1 h2 h3
    cases hf : t.failed with
    | nil => rfl
    | cons a l =>
      have := (h.stop (by rw [hf]; simp)).2
      rcases this with h' | h' | h'
      · exact absurd h' h1
      · exact absurd h' h2
      · exact absurd h' h3
  unfold thrStep
  cases hp : t.pc with
  | run =>
    have hs := hst (by rw [hp]; simp)
    have hf := hnf (by rw [hp]; simp) (by rw [hp]; simp) (by rw [hp]; simp)
    have hsp := h.split
    rw [hp] at hsp
    simp only
    split
    · refine ⟨⟨?_, h.status, fun hf' => absurd hf hf', fun e => by simp [hs] at e⟩, rfl, rfl, Nat.le_refl _, id, id,
        fun e => .inl e, .inl ⟨rfl, by simp⟩⟩
      simpa [PC.sending] using hsp
    · split
      · refine ⟨⟨?_, h.status, fun hf' => absurd hf hf', fun e => by simp [hs] at e⟩, rfl, rfl, Nat.le_refl _, id, id,
          fun e => .inl e, .inl ⟨rfl, by simp⟩⟩
        simpa [PC.sending] using hsp
      · rename_i r l htd
        refine ⟨⟨?_, h.status, fun hf' => absurd hf hf', fun e => by simp [hs] at e⟩, rfl, rfl, Nat.le_refl _, id, id,
          fun e => .inl e, .inl ⟨rfl, by simp⟩⟩
        simpa [PC.sending, htd] using hsp
  | send r =>
    have hs := hst (by rw [hp]; simp)
    have hf := hnf (by rw [hp]; simp) (by rw [hp]; simp) (by rw [hp]; simp)
    have hsp := h.split
    rw [hp, hf] at hsp
    simp only
    split
    · refine ⟨⟨?_, ?_, fun hf' => absurd hf hf', fun e => by simp [hs] at e⟩, rfl, rfl, by simp, id, id,
        fun e => .inl e, .inl ⟨rfl, by simp⟩⟩
      · simpa [PC.sending, hf] using hsp
      · simp [hf]
    · refine ⟨⟨?_, ?_, fun _ => ⟨rfl, .inl rfl⟩, fun e => by simp [hs] at e⟩, rfl, rfl, Nat.le_refl _, ?_, fun _ => rfl,
        fun _ => .inr (by simp), .inl ⟨rfl, by simp⟩⟩
      · simpa [PC.sending, hf] using hsp
      · simp
      · intro _
        simp
  | leave =>
    have hs := hst (by rw [hp]; simp)
    have hsp := h.split
    rw [hp] at hsp
    refine ⟨⟨?_, h.status, fun hf' => ⟨(h.stop hf').1, .inr (.inl rfl)⟩, fun e => by simp [hs] at e⟩, rfl, rfl,
      Nat.le_refl _, id, id, fun e => .inl e, .inl ⟨rfl, by simp⟩⟩
    simpa [PC.sending] using hsp
  | flagged =>
    have hs := hst (by rw [hp]; simp)
    have hsp := h.split
    rw [hp] at hsp
    refine ⟨⟨?_, h.status, fun hf' => ⟨(h.stop hf').1, .inr (.inr rfl)⟩, fun e => by simp [hs] at e⟩, rfl, rfl,
      Nat.le_refl _, id, id, fun e => .inl e, .inr ⟨t.status, rfl, rfl, ?_, hs⟩⟩
    · simpa [PC.sending] using hsp
    · have := h.status
      constructor
      · intro e
        cases hf : t.failed with
        | nil => rfl
        | cons a l =>
          have := this.2 (by rw [hf]; simp)
          rw [e] at this
          cases this
      · intro e
        cases hs : t.status
        · exact absurd e (this.1 hs)
        · rfl
  | done =>
    exact ⟨h, rfl, rfl, Nat.le_refl _, id, id, fun e => .inl e, .inl ⟨rfl, fun _ => rfl⟩⟩

theorem inv_step {s : St} (h : Inv s) (e : Ev) : Inv (step s e) := by
  cases e with
  | main =>
    unfold step mainStep
    simp only
    split
    · split
      · rename_i hc
        refine ⟨h.thr, h.exit, h.lastF, h.lastT, ?_, by simp⟩
        intro _
        simpa using hc
      · exact h
    · rename_i hm
      split
      · refine ⟨h.thr, h.exit, h.lastF, h.lastT, fun _ => h.main (by rw [hm]; simp), ?_⟩
        intro hf
        simp only [Main.fin.injEq] at hf
        split at hf
        · exact h.lastF hf
        · cases hf
      · exact h
    · exact h
  | thr i ok =>
    unfold step
    simp only
    split
    · exact h
    · rename_i t ht
      have htm : t ∈ s.thr := List.mem_of_getElem? ht
      have hM := moves ok (h.thr t htm)
      have keep : (∃ q ∈ s.thr, q.failed ≠ []) → ∃ q ∈ s.thr.set i (thrStep s.needExit ok t).1, q.failed ≠ [] := by
        rintro ⟨q, hq, hf⟩
        by_cases hqt : q = t
        · subst hqt
          exact ⟨_, mem_set_of_get ht, hM.failed hf⟩
        · exact ⟨q, mem_set_old ht hq hqt, hf⟩
      refine ⟨?_, ?_, ?_, ?_, ?_, ?_⟩
      · intro q hq
        rcases set_mem hq with hq | rfl
        · have := h.thr q hq
          exact ⟨this.split, this.status, fun hf => ⟨hM.mono (this.stop hf).1, (this.stop hf).2⟩, this.absent⟩
        · exact hM.inv
      · intro hn
        rcases hM.exit hn with hn | hf
        · exact keep (h.exit hn)
        · exact ⟨_, mem_set_of_get ht, hf⟩
      · intro hl
        rcases hM.write with ⟨hw, _⟩ | ⟨b, hw, _, hb, _⟩
        · simp only [hw, Option.getD_none] at hl
          exact keep (h.lastF hl)
        · simp only [hw, Option.getD_some] at hl
          refine ⟨_, mem_set_of_get ht, ?_⟩
          intro hf
          rw [hb.2 hf] at hl
          cases hl
      · intro hl
        rcases hM.write with ⟨hw, hd⟩ | ⟨b, hw, hpc, hb, hs⟩
        · simp only [hw, Option.getD_none] at hl
          rcases h.lastT hl with hall | ⟨q, hq, h1, h2, h3⟩
          · left
            intro q hq
            rcases set_mem hq with hq | rfl
            · exact hall q hq
            · intro hs' hd'
              rw [hd hd'] at hs' hd'
              exact hall t htm hs' hd'
          · right
            by_cases hqt : q = t
            · subst hqt
              have hsame : (thrStep s.needExit ok q).1 = q := by
                unfold thrStep
                rw [h2]
              exact ⟨_, mem_set_of_get ht, by rw [hsame]; exact ⟨h1, h2, h3⟩⟩
            · exact ⟨q, mem_set_old ht hq hqt, h1, h2, h3⟩
        · simp only [hw, Option.getD_some] at hl
          right
          exact ⟨_, mem_set_of_get ht, hs, hpc, hb.1 hl⟩
      · intro hm
        rcases h.main hm with hn | hn
        · exact .inl (hM.mono hn)
        · right
          have h1 : total (s.thr.set i (thrStep s.needExit ok t).1) = total s.thr :=
            sum_set_eq (fun t => t.regions.length) ht (by simp only [hM.regions])
          have h2 : handled s.thr ≤ handled (s.thr.set i (thrStep s.needExit ok t).1) :=
            sum_set (fun t => t.saved.length) ht hM.saved
          simp only
          omega
      · intro hm
        exact keep (h.fin hm)

theorem inv_start (l : List (List Nat × Bool)) : Inv (start l) := by
  refine ⟨?_, by simp [start], by simp [start], ?_, by simp [start], by simp [start]⟩
  · intro t ht
    simp only [start, List.mem_map] at ht
    obtain ⟨x, _, rfl⟩ := ht
    refine ⟨?_, by simp, by simp, ?_⟩
    · cases hx : x.2 <;> simp [PC.sending]
    · intro hs
      simp only at hs
      simp [hs]
  · intro _
    left
    intro t ht
    simp only [start, List.mem_map] at ht
    obtain ⟨x, _, rfl⟩ := ht
    intro hs
    simp only at hs
    simp [hs]

theorem inv_exec (l : List (List Nat × Bool)) (evs : List Ev) : Inv (exec (start l) evs) := by
  unfold exec
  suffices ∀ s, Inv s → Inv (evs.foldl step s) from this _ (inv_start l)
  induction evs with
  | nil => exact fun s h => h
  | cons e evs ih => exact fun s h => ih _ (inv_step h e)

theorem all_saved {ne : Bool} : ∀ {l : List Thr}, (∀ t ∈ l, TInv ne t) → total l ≤ handled l →
    ∀ t ∈ l, t.saved = t.regions := by
  have hle : ∀ {t : Thr}, TInv ne t → t.saved.length ≤ t.regions.length := by
    intro t h
    rw [← h.split]
    simp only [List.length_append]
    omega
  have hsum : ∀ {l : List Thr}, (∀ t ∈ l, TInv ne t) → handled l ≤ total l := by
    intro l
    induction l with
    | nil => intro _; exact Nat.le_refl _
    | cons t l ih =>
      intro h
      have h1 := hle (h t (List.mem_cons_self ..))
      have h2 := ih (fun q hq => h q (List.mem_cons_of_mem _ hq))
      simp only [handled, total, List.map_cons, List.sum_cons] at h2 ⊢
      omega
  intro l
  induction l with
  | nil => intro _ _ t ht; cases ht
  | cons a l ih =>
    intro h ht t hm
    have h1 := hle (h a (List.mem_cons_self ..))
    have h2 := hsum (fun q hq => h q (List.mem_cons_of_mem _ hq))
    have ht' : a.regions.length + total l ≤ a.saved.length + handled l := by
      simpa [handled, total] using ht
    rcases List.mem_cons.1 hm with rfl | hm
    · have hs := (h t (List.mem_cons_self ..)).split
      have hlen : t.saved.length = t.regions.length := by omega
      have : t.failed ++ t.pc.sending ++ t.todo = [] := by
        apply List.eq_nil_of_length_eq_zero
        have := congrArg List.length hs
        simp only [List.length_append] at this ⊢
        omega
      rw [List.append_assoc, List.append_assoc, ← List.append_assoc t.failed, this, List.append_nil] at hs
      exact hs
    · exact ih (fun q hq => h q (List.mem_cons_of_mem _ hq)) (by omega) t hm

/-! ## Properties of a backup -/

/-- Whatever the order of steps, if no request failed and the tool ends, then it ends with success and
every region has been backed up. -/
theorem C109_complete_partial (l : List (List Nat × Bool)) (evs : List Ev) {ok : Bool}
    (hend : (exec (start l) evs).main = .fin ok) (hnf : ∀ t ∈ (exec (start l) evs).thr, t.failed = []) :
    ok = true ∧ ∀ t ∈ (exec (start l) evs).thr, t.saved = t.regions := by
  have h := inv_exec l evs
  have hne : ¬ (exec (start l) evs).needExit = true := by
    intro hn
    obtain ⟨t, ht, hf⟩ := h.exit hn
    exact hf (hnf t ht)
  constructor
  · cases ok
    · obtain ⟨t, ht, hf⟩ := h.fin hend
      exact absurd (hnf t ht) hf
    · rfl
  · rcases h.main (by rw [hend]; simp) with hn | hn
    · exact absurd hn hne
    · exact all_saved h.thr hn

/-- The tool ends with an error only if a request failed. -/
theorem C109_told (l : List (List Nat × Bool)) (evs : List Ev) (hend : (exec (start l) evs).main = .fin false) :
    ∃ t ∈ (exec (start l) evs).thr, t.failed ≠ [] :=
  (inv_exec l evs).fin hend

/-- An error is told if every thread that was started had one, and all have come to their end when
the main thread looks.  (Missing: when others had none, or have not yet noted theirs:
`C109_lost_false`, `C109_race_false`.) -/
theorem C109_reported_partial (l : List (List Nat × Bool)) (evs : List Ev)
    (hj : (exec (start l) evs).main = .join) (hall : ∀ t ∈ (exec (start l) evs).thr, t.pc = .done)
    (hs : ∃ t ∈ (exec (start l) evs).thr, t.started = true)
    (hf : ∀ t ∈ (exec (start l) evs).thr, t.started = true → t.failed ≠ []) :
    (exec (start l) (evs ++ [.main])).main = .fin false := by
  have h := inv_exec l evs
  have e : exec (start l) (evs ++ [.main]) = mainStep (exec (start l) evs) := by
    simp [exec, step]
  rw [e]
  generalize exec (start l) evs = s at *
  obtain ⟨t, ht, hst⟩ := hs
  have hn : s.needExit = true := ((h.thr t ht).stop (hf t ht hst)).1
  have hl : s.last = false := by
    cases hl : s.last
    · rfl
    · rcases h.lastT hl with h' | ⟨q, hq, h1, _, h3⟩
      · exact absurd (hall t ht) (h' t ht hst)
      · exact absurd h3 (hf q hq h1)
  have hx : s.thr.all Thr.exited = true := by
    rw [List.all_eq_true]
    intro q hq
    simp [Thr.exited, hall q hq]
  unfold mainStep
  simp [hj, hx, hn, hl]

/-- If there are regions of a kind but no node of that kind, and no request fails, the tool never ends. -/
theorem C109_hang_false (l : List (List Nat × Bool)) (evs : List Ev) {t : Thr}
    (ht : t ∈ (exec (start l) evs).thr) (hs : t.started = false) (hr : t.regions ≠ [])
    (hnf : ∀ t ∈ (exec (start l) evs).thr, t.failed = []) : (exec (start l) evs).main = .wait := by
  have h := inv_exec l evs
  cases hm : (exec (start l) evs).main with
  | wait => rfl
  | join =>
    exfalso
    rcases h.main (by rw [hm]; simp) with hn | hn
    · obtain ⟨q, hq, hf⟩ := h.exit hn
      exact hf (hnf q hq)
    · have := all_saved h.thr hn t ht
      rw [((h.thr t ht).absent hs).1] at this
      exact hr this.symm
  | fin ok =>
    exfalso
    have := (C109_complete_partial l evs hm hnf).2 t ht
    rw [((h.thr t ht).absent hs).1] at this
    exact hr this.symm

/-! ## Restore -/

/-- What holds of a restore of `all`. -/
structure RInv (all : List Nat) (threads : List Bool) (s : RSt) : Prop where
  cover : ∀ g ∈ all, g ∈ s.done ∨ g ∈ s.failed ∨ g ∈ s.dropped ∨ g ∈ s.groups ∨ RPC.work g ∈ s.thr
  stop : s.failed ≠ [] → s.needExit = true
  dropped : s.dropped ≠ [] → s.needExit = true
  exit : s.needExit = true → s.last = false ∨ RPC.err ∈ s.thr
  out : s.last = true → RPC.out ∈ s.thr → s.needExit = true ∨ s.groups = []
  lastF : s.last = false → s.failed ≠ [] ∨ false ∈ threads
  err : RPC.err ∈ s.thr → s.failed ≠ []
  size : s.thr.length = threads.length
  fin : ∀ b, s.main = .fin b → s.gaveUp = false → b = s.last ∧ ∀ t ∈ s.thr, t = .out
  finF : s.main = .fin false → s.failed ≠ [] ∨ false ∈ threads

theorem rinv_start (groups : List Nat) (threads : List Bool) : RInv groups threads (rstart groups threads) := by
  refine ⟨?_, by simp [rstart], by simp [rstart], by simp [rstart], ?_, ?_, ?_, by simp [rstart], by simp [rstart],
    by simp [rstart]⟩
  · intro g hg
    exact .inr (.inr (.inr (.inl hg)))
  · intro hl ho
    exfalso
    simp only [rstart, List.all_eq_true, id] at hl
    simp only [rstart, List.mem_map] at ho
    obtain ⟨b, hb, e⟩ := ho
    rw [hl b hb] at e
    cases e
  · intro hl
    right
    simp only [rstart] at hl
    rw [List.all_eq_false] at hl
    obtain ⟨b, hb, hf⟩ := hl
    cases b
    · exact hb
    · exact absurd rfl hf
  · intro he
    simp only [rstart, List.mem_map] at he
    obtain ⟨b, _, e⟩ := he
    cases b <;> cases e

theorem rinv_step {all : List Nat} {threads : List Bool} {n : Nat} {s : RSt} (h : RInv all threads s) (e : REv) :
    RInv all threads (rstep n s e) := by
  have hfinno : ∀ {i : Nat} {x : RPC}, s.thr[i]? = some x → x ≠ .out →
      ∀ b, s.main = .fin b → s.gaveUp = false → False := by
    intro i x hx hne b hm hg
    exact hne ((h.fin b hm hg).2 x (List.mem_of_getElem? hx))
  cases e with
  | main =>
    unfold rstep
    simp only
    split
    · split
      · exact ⟨h.cover, h.stop, h.dropped, h.exit, h.out, h.lastF, h.err, h.size, by simp, by simp⟩
      · exact h
    · split
      · rename_i hall
        refine ⟨h.cover, h.stop, h.dropped, h.exit, h.out, h.lastF, h.err, h.size, ?_, ?_⟩
        · intro b hb _
          simp only [Main.fin.injEq] at hb
          refine ⟨hb.symm, ?_⟩
          intro t ht
          rw [List.all_eq_true] at hall
          simpa using hall t ht
        · intro hb
          simp only [Main.fin.injEq] at hb
          exact h.lastF hb
      · exact h
    · exact h
  | giveUp =>
    unfold rstep
    simp only
    split
    · refine ⟨h.cover, h.stop, h.dropped, h.exit, h.out, h.lastF, h.err, h.size, by simp, ?_⟩
      intro hb
      simp only [Main.fin.injEq] at hb
      exact h.lastF hb
    · exact h
  | thr i o =>
    unfold rstep rthr
    simp only
    split
    · exact h
    · rename_i hi
      have hw : ∀ {a : RPC} {g : Nat}, RPC.work g ∈ s.thr → RPC.work g ∈ s.thr.set i a :=
        fun hg => mem_set_old hi hg (by simp)
      have he : ∀ {a : RPC}, RPC.err ∈ s.thr → RPC.err ∈ s.thr.set i a :=
        fun hg => mem_set_old hi hg (by simp)
      have hno := hfinno hi (by simp)
      split
      · rename_i hn
        refine ⟨?_, h.stop, h.dropped, ?_, fun _ _ => .inl hn, h.lastF, ?_, by simp [h.size],
          fun b hb hg => (hno b hb hg).elim, h.finF⟩
        · intro g hg
          rcases h.cover g hg with h' | h' | h' | h' | h'
          · exact .inl h'
          · exact .inr (.inl h')
          · exact .inr (.inr (.inl h'))
          · exact .inr (.inr (.inr (.inl h')))
          · exact .inr (.inr (.inr (.inr (hw h'))))
        · intro hx
          rcases h.exit hx with h' | h'
          · exact .inl h'
          · exact .inr (he h')
        · intro hx
          rcases set_mem hx with hx | hx
          · exact h.err hx
          · cases hx
      · rename_i hn
        split
        · rename_i hg0
          refine ⟨?_, h.stop, h.dropped, ?_, fun _ _ => .inr hg0, h.lastF, ?_, by simp [h.size],
            fun b hb hg => (hno b hb hg).elim, h.finF⟩
          · intro g hg
            rcases h.cover g hg with h' | h' | h' | h' | h'
            · exact .inl h'
            · exact .inr (.inl h')
            · exact .inr (.inr (.inl h'))
            · exact .inr (.inr (.inr (.inl h')))
            · exact .inr (.inr (.inr (.inr (hw h'))))
          · intro hx
            exact absurd hx hn
          · intro hx
            rcases set_mem hx with hx | hx
            · exact h.err hx
            · cases hx
        · rename_i g l hg0
          refine ⟨?_, h.stop, h.dropped, fun hx => absurd hx hn, ?_, h.lastF, ?_, by simp [h.size],
            fun b hb hg => (hno b hb hg).elim, h.finF⟩
          · intro q hq
            rcases h.cover q hq with h' | h' | h' | h' | h'
            · exact .inl h'
            · exact .inr (.inl h')
            · exact .inr (.inr (.inl h'))
            · rw [hg0] at h'
              rcases List.mem_cons.1 h' with rfl | h'
              · exact .inr (.inr (.inr (.inr (mem_set_of_get hi))))
              · exact .inr (.inr (.inr (.inl h')))
            · exact .inr (.inr (.inr (.inr (hw h'))))
          · intro hl ho
            rcases set_mem ho with ho | ho
            · rcases h.out hl ho with h' | h'
              · exact absurd h' hn
              · rw [hg0] at h'
                cases h'
            · cases ho
          · intro hx
            rcases set_mem hx with hx | hx
            · exact h.err hx
            · cases hx
    · rename_i g hi
      have he : ∀ {a : RPC}, RPC.err ∈ s.thr → RPC.err ∈ s.thr.set i a :=
        fun hg => mem_set_old hi hg (by simp)
      have hw : ∀ {a : RPC} {q : Nat}, RPC.work q ∈ s.thr → q = g ∨ RPC.work q ∈ s.thr.set i a := by
        intro a q hq
        by_cases e : q = g
        · exact .inl e
        · exact .inr (mem_set_old hi hq (by simpa using e))
      have hno := hfinno hi (by simp)
      split
      · refine ⟨?_, h.stop, h.dropped, ?_, ?_, h.lastF, ?_, by simp [h.size], fun b hb hg => (hno b hb hg).elim, h.finF⟩
        · intro q hq
          rcases h.cover q hq with h' | h' | h' | h' | h'
          · exact .inl (List.mem_append_left _ h')
          · exact .inr (.inl h')
          · exact .inr (.inr (.inl h'))
          · exact .inr (.inr (.inr (.inl h')))
          · rcases hw h' with rfl | h'
            · exact .inl (by simp)
            · exact .inr (.inr (.inr (.inr h')))
        · intro hx
          rcases h.exit hx with h' | h'
          · exact .inl h'
          · exact .inr (he h')
        · intro hl ho
          rcases set_mem ho with ho | ho
          · exact h.out hl ho
          · cases ho
        · intro hx
          rcases set_mem hx with hx | hx
          · exact h.err hx
          · cases hx
      · refine ⟨?_, fun _ => rfl, fun _ => rfl, fun _ => .inr (mem_set_of_get hi), fun _ _ => .inl rfl,
          fun _ => .inl (by simp), fun _ => by simp, by simp [h.size], fun b hb hg => (hno b hb hg).elim,
          fun _ => .inl (by simp)⟩
        intro q hq
        rcases h.cover q hq with h' | h' | h' | h' | h'
        · exact .inl h'
        · exact .inr (.inl (List.mem_append_left _ h'))
        · exact .inr (.inr (.inl h'))
        · exact .inr (.inr (.inr (.inl h')))
        · rcases hw h' with rfl | h'
          · exact .inr (.inl (by simp))
          · exact .inr (.inr (.inr (.inr h')))
      · split
        · rename_i hn
          refine ⟨?_, h.stop, fun _ => hn, ?_, fun _ _ => .inl hn, h.lastF, ?_, by simp [h.size],
            fun b hb hg => (hno b hb hg).elim, h.finF⟩
          · intro q hq
            rcases h.cover q hq with h' | h' | h' | h' | h'
            · exact .inl h'
            · exact .inr (.inl h')
            · exact .inr (.inr (.inl (List.mem_append_left _ h')))
            · exact .inr (.inr (.inr (.inl h')))
            · rcases hw h' with rfl | h'
              · exact .inr (.inr (.inl (by simp)))
              · exact .inr (.inr (.inr (.inr h')))
          · intro hx
            rcases h.exit hx with h' | h'
            · exact .inl h'
            · exact .inr (he h')
          · intro hx
            rcases set_mem hx with hx | hx
            · exact h.err hx
            · cases hx
        · exact h
    · rename_i hi
      have hno := hfinno hi (by simp)
      have herr : s.failed ≠ [] := h.err (List.mem_of_getElem? hi)
      refine ⟨?_, h.stop, h.dropped, fun _ => .inl rfl, by simp, fun _ => .inl herr, fun _ => herr, by simp [h.size],
        fun b hb hg => (hno b hb hg).elim, h.finF⟩
      intro g hg
      rcases h.cover g hg with h' | h' | h' | h' | h'
      · exact .inl h'
      · exact .inr (.inl h')
      · exact .inr (.inr (.inl h'))
      · exact .inr (.inr (.inr (.inl h')))
      · exact .inr (.inr (.inr (.inr (mem_set_old hi h' (by simp)))))
    · exact h

theorem rinv_exec (groups : List Nat) (threads : List Bool) (n : Nat) (evs : List REv) :
    RInv groups threads (rexec n (rstart groups threads) evs) := by
  unfold rexec
  suffices ∀ s, RInv groups threads s → RInv groups threads (evs.foldl (rstep n) s) from this _ (rinv_start _ _)
  induction evs with
  | nil => exact fun s h => h
  | cons e evs ih => exact fun s h => ih _ (rinv_step h e)

/-- Whatever the order of steps and the number of threads: if the main thread of a restore sees all
threads out and ends with success, every region has been restored and none has failed. -/
theorem C109_restore {groups : List Nat} {threads : List Bool} (ht : threads ≠ []) (n : Nat) (evs : List REv)
    (hend : (rexec n (rstart groups threads) evs).main = .fin true)
    (hg : (rexec n (rstart groups threads) evs).gaveUp = false) :
    (∀ g ∈ groups, g ∈ (rexec n (rstart groups threads) evs).done) ∧
      (rexec n (rstart groups threads) evs).failed = [] := by
  have h := rinv_exec groups threads n evs
  generalize rexec n (rstart groups threads) evs = s at *
  obtain ⟨hl, hout⟩ := h.fin _ hend hg
  have hne : ¬ s.needExit = true := by
    intro hn
    rcases h.exit hn with h' | h'
    · rw [h'] at hl
      cases hl
    · cases hout _ h'
  have hf : s.failed = [] := by
    cases hf : s.failed with
    | nil => rfl
    | cons a l => exact absurd (h.stop (by rw [hf]; simp)) hne
  have hd : s.dropped = [] := by
    cases hd : s.dropped with
    | nil => rfl
    | cons a l => exact absurd (h.dropped (by rw [hd]; simp)) hne
  have hgr : s.groups = [] := by
    have hlen : s.thr ≠ [] := by
      intro e
      have := h.size
      rw [e] at this
      exact ht (List.eq_nil_of_length_eq_zero this.symm)
    obtain ⟨x, hx⟩ := List.exists_mem_of_ne_nil _ hlen
    have := hout x hx
    subst this
    rcases h.out hl.symm hx with h' | h'
    · exact absurd h' hne
    · exact h'
  refine ⟨?_, hf⟩
  intro g hgm
  rcases h.cover g hgm with h' | h' | h' | h' | h'
  · exact h'
  · rw [hf] at h'
    cases h'
  · rw [hd] at h'
    cases h'
  · rw [hgr] at h'
    cases h'
  · cases hout _ h'

/-- A restore ends with an error only if the restore of a region failed or a thread could not be
started. -/
theorem C109_restore_told (groups : List Nat) (threads : List Bool) (n : Nat) (evs : List REv)
    (hend : (rexec n (rstart groups threads) evs).main = .fin false) :
    (rexec n (rstart groups threads) evs).failed ≠ [] ∨ false ∈ threads :=
  (rinv_exec groups threads n evs).finF hend

end Verif.BrTool
