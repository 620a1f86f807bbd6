import Verif.Backup.Spec

/-! # Restore of a region: lemmas -/

namespace Verif.Backup
open Verif.Codec Verif.Txn

/-- Everything of one sort that has been applied or is in the request being filled. -/
def tot {β : Type} (g : RReq → List β) (s : RS) : List β := s.done.flatMap g ++ g s.req

theorem flush_ok {s : RS} (h : ∀ r ∈ s.res, r = .ok) :
    flush s = .ok { done := s.done ++ [s.req], res := s.res.tail } := by
  unfold flush
  cases hr : s.res with
  | nil => rfl
  | cons r l => rw [hr] at h; rw [List.headD_cons, h r List.mem_cons_self]

theorem flushIf_ok (c : Conf) {s : RS} (h : ∀ r ∈ s.res, r = .ok) :
    ∃ s', flushIf c s = .ok s' ∧ (∀ r ∈ s'.res, r = .ok) ∧ (s' = s ∨ s'.done = s.done ++ [s.req] ∧ s'.req = {}) := by
  unfold flushIf
  split
  · exact ⟨_, flush_ok h, fun r hr => h r (List.mem_of_mem_tail hr), Or.inr ⟨rfl, rfl⟩⟩
  · exact ⟨s, rfl, h, Or.inl rfl⟩

theorem tot_flushed {β : Type} {g : RReq → List β} (hg : g {} = []) {s s' : RS}
    (h : s' = s ∨ s'.done = s.done ++ [s.req] ∧ s'.req = {}) : tot g s' = tot g s := by
  rcases h with rfl | ⟨h1, h2⟩
  · rfl
  · simp [tot, h1, h2, hg]

/-- A loop all of whose writes succeed. -/
theorem loop_ok {α : Type} (c : Conf) {put : RS → α → Except ROut RS} {l : List α} {s : RS}
    (hres : ∀ r ∈ s.res, r = .ok)
    (hput : ∀ s : RS, ∀ e ∈ l, ∃ s', put s e = .ok s' ∧ s'.done = s.done ∧ s'.res = s.res)
    (P : RS → Prop) (hP : ∀ s s' : RS, ∀ e ∈ l, put s e = .ok s' → P s → P s')
    (hF : ∀ s s' : RS, s'.done = s.done ++ [s.req] → s'.req = {} → P s → P s') (hp : P s) :
    ∃ s', loop c put l s = .ok s' ∧ (∀ r ∈ s'.res, r = .ok) ∧ P s' := by
  induction l generalizing s with
  | nil => exact ⟨s, rfl, hres, hp⟩
  | cons e rest ih =>
    obtain ⟨s1, h1, h2, h3⟩ := hput s e List.mem_cons_self
    obtain ⟨s2, h4, h5, h6⟩ := flushIf_ok c (s := s1) (by rw [h3]; exact hres)
    have hp1 := hP s s1 e List.mem_cons_self h1 hp
    have hp2 : P s2 := by
      rcases h6 with rfl | ⟨a, b⟩
      · exact hp1
      · exact hF s1 s2 a b hp1
    obtain ⟨s3, h7, h8, h9⟩ := ih h5 (fun s e he => hput s e (List.mem_cons_of_mem _ he))
      (fun s s' e he => hP s s' e (List.mem_cons_of_mem _ he)) hp2
    exact ⟨s3, by simp only [loop, h1, h4, h7], h8, h9⟩

theorem loop_tot {α β : Type} (c : Conf) {put : RS → α → Except ROut RS} {l : List α} {s s' : RS}
    (hres : ∀ r ∈ s.res, r = .ok) (g : RReq → List β) (hg : g {} = []) (h : α → List β)
    (hput : ∀ s : RS, ∀ e ∈ l, ∃ s', put s e = .ok s' ∧ s'.done = s.done ∧ s'.res = s.res ∧
      g s'.req = g s.req ++ h e)
    (hl : loop c put l s = .ok s') : tot g s' = tot g s ++ l.flatMap h := by
  induction l generalizing s with
  | nil => simp only [loop, Except.ok.injEq] at hl; subst hl; simp
  | cons e rest ih =>
    obtain ⟨s1, h1, h2, h3, h3'⟩ := hput s e List.mem_cons_self
    obtain ⟨s2, h4, h5, h6⟩ := flushIf_ok c (s := s1) (by rw [h3]; exact hres)
    simp only [loop, h1, h4] at hl
    rw [ih h5 (fun s e he => hput s e (List.mem_cons_of_mem _ he)) hl, tot_flushed hg h6]
    simp [tot, h2, h3']

/-! ## What applied requests do to the region -/

theorem apply_get_write (st : State) (rs : List RReq) (k : VKey) :
    (applyReqs rs st).write.get k = (CF.lastPut (rs.flatMap RReq.write) k).or (st.write.get k) := by
  induction rs generalizing st with
  | nil => simp [applyReqs, CF.lastPut]
  | cons r rs ih =>
    have := ih (r.apply st)
    simp only [applyReqs, List.foldl_cons, List.flatMap_cons] at this ⊢
    rw [this, CF.lastPut_append]
    simp only [RReq.apply, State.apply, CF.get_putAll]
    cases CF.lastPut (rs.flatMap RReq.write) k <;> simp

theorem apply_get_data (st : State) (rs : List RReq) (k : VKey) :
    (applyReqs rs st).data.get k = (CF.lastPut (rs.flatMap RReq.data) k).or (st.data.get k) := by
  induction rs generalizing st with
  | nil => simp [applyReqs, CF.lastPut]
  | cons r rs ih =>
    have := ih (r.apply st)
    simp only [applyReqs, List.foldl_cons, List.flatMap_cons] at this ⊢
    rw [this, CF.lastPut_append]
    simp only [RReq.apply, State.apply, CF.delAll, List.foldl_nil, CF.get_putAll]
    cases CF.lastPut (rs.flatMap RReq.data) k <;> simp

theorem apply_lock (st : State) (rs : List RReq) :
    (applyReqs rs st).lock = st.lock ∧ (applyReqs rs st).maxTs = st.maxTs := by
  induction rs generalizing st with
  | nil => exact ⟨rfl, rfl⟩
  | cons r rs ih => exact ih (r.apply st)

theorem lastPut_of_nodup {κ ν : Type} [KeyOrder κ] {l : List (κ × ν)} (h : (l.map Prod.fst).Nodup) {k : κ} {v : ν}
    (hm : (k, v) ∈ l) : CF.lastPut l k = some v := by
  cases hl : CF.lastPut l k with
  | none => exact absurd rfl (CF.lastPut_none.1 hl _ hm)
  | some v' =>
    have hm' := CF.lastPut_mem hl
    induction l with
    | nil => cases hm
    | cons x l ih =>
      have hx := List.nodup_cons.1 h
      rcases List.mem_cons.1 hm with h1 | h1 <;> rcases List.mem_cons.1 hm' with h2 | h2
      · rw [← h1] at h2; cases h2; rfl
      · exact absurd (List.mem_map_of_mem (f := Prod.fst) h2) (by rw [← h1] at hx; exact hx.1)
      · exact absurd (List.mem_map_of_mem (f := Prod.fst) h1) (by rw [← h2] at hx; exact hx.1)
      · rw [CF.lastPut_cons] at hl
        cases hl' : CF.lastPut l k with
        | none => exact absurd rfl (CF.lastPut_none.1 hl' _ h1)
        | some v'' => rw [hl'] at hl; cases hl; exact ih hx.2 h1 hl' h2

theorem holds_of {f : Files} (hd : f.Distinct) {rs : List RReq} (h1 : rs.flatMap RReq.data = f.data)
    (h2 : rs.flatMap RReq.write = f.write) (st : State) : Holds f st (applyReqs rs st) := by
  obtain ⟨a1, a2⟩ := apply_lock st rs
  refine ⟨a1, a2, ?_, ?_, ?_, ?_⟩
  · intro k w hk
    rw [CF.mem_iff_get, apply_get_write, h2, lastPut_of_nodup hd.1 hk]; rfl
  · intro k hk w
    rw [CF.mem_iff_get, CF.mem_iff_get, apply_get_write, h2,
      CF.lastPut_none.2 (fun e he hek => hk e.2 (by rw [← hek]; exact he))]
    rfl
  · intro k v hk
    rw [CF.mem_iff_get, apply_get_data, h1, lastPut_of_nodup hd.2 hk]; rfl
  · intro k hk v
    rw [CF.mem_iff_get, CF.mem_iff_get, apply_get_data, h1,
      CF.lastPut_none.2 (fun e he hek => hk e.2 (by rw [← hek]; exact he))]
    rfl

/-! ## Whatever becomes of the writes -/

/-- An invariant of a loop, whatever becomes of the writes. -/
theorem loop_inv {α : Type} (c : Conf) {put : RS → α → Except ROut RS} {l : List α} {s : RS} (P : RS → Prop)
    (Q : List RReq → Prop) (hPQ : ∀ s, P s → Q s.done)
    (hput : ∀ s s' : RS, ∀ e ∈ l, P s → put s e = .ok s' → ∀ s'', flushIf c s' = .ok s'' → P s'')
    (herr : ∀ s s' : RS, ∀ e ∈ l, P s → put s e = .ok s' → s'.done = s.done) (hp : P s) :
    match loop c put l s with
    | .ok s' => P s'
    | .error x => Q x.2 := by
  induction l generalizing s with
  | nil => exact hp
  | cons e rest ih =>
    simp only [loop]
    cases h1 : put s e with
    | error o => exact hPQ s hp
    | ok s1 =>
      simp only
      cases h2 : flushIf c s1 with
      | error x =>
        simp only
        unfold flushIf at h2
        split at h2
        · unfold flush at h2
          split at h2
          · cases h2
          · cases h2
            simp only
            rw [herr s s1 e List.mem_cons_self hp h1]
            exact hPQ s hp
          · cases h2
        · cases h2
      | ok s2 =>
        simp only
        exact ih (fun s s' e he => hput s s' e (List.mem_cons_of_mem _ he))
          (fun s s' e he => herr s s' e (List.mem_cons_of_mem _ he))
          (hput s s1 e List.mem_cons_self hp h1 s2 h2)

end Verif.Backup

namespace Verif.Backup
open Verif.Codec Verif.Txn

/-! ## A restore that is stopped -/

/-- Requests that have been applied stay applied. -/
theorem flushIf_mono (c : Conf) {s s' : RS} (h : flushIf c s = .ok s') : s.done <+: s'.done := by
  unfold flushIf at h
  split at h
  · unfold flush at h
    split at h
    · cases h; exact List.prefix_append _ _
    · cases h
    · cases h
      simp only
      split
      · exact List.prefix_append _ _
      · exact List.prefix_refl _
  · cases h; exact List.prefix_refl _

theorem loop_mono {α : Type} (c : Conf) {put : RS → α → Except ROut RS}
    (hdone : ∀ s e s', put s e = .ok s' → s'.done = s.done) (l : List α) (s : RS) :
    match loop c put l s with
    | .ok s' => s.done <+: s'.done
    | .error x => s.done <+: x.2 := by
  induction l generalizing s with
  | nil => exact List.prefix_refl _
  | cons e rest ih =>
    simp only [loop]
    cases h1 : put s e with
    | error o => exact List.prefix_refl _
    | ok s1 =>
      simp only
      have hd := hdone s e s1 h1
      cases h2 : flushIf c s1 with
      | error x =>
        simp only
        unfold flushIf at h2
        split at h2
        · unfold flush at h2
          split at h2
          · cases h2
          · cases h2; simp only; rw [hd]; exact List.prefix_refl _
          · cases h2
        · cases h2
      | ok s2 =>
        simp only
        have hm := flushIf_mono c h2
        rw [hd] at hm
        have := ih s2
        split at this
        · exact hm.trans this
        · exact hm.trans this

/-- The results of the writes: `n` in all succeed, the next is answered with `EPERM`. -/
def stopped (n : Nat) (t : List WRes) (s : RS) : RS :=
  { s with res := List.replicate (n - s.done.length) .ok ++ .perm :: t }

/-- How the outcome of a part of the restore is changed when it is stopped after `n` writes. -/
def StopRel (n : Nat) (t : List WRes) : Except (ROut × List RReq) RS → Except (ROut × List RReq) RS → Prop
  | .ok s, y => s.res = [] ∧
      ((s.done.length ≤ n ∧ y = .ok (stopped n t s)) ∨
       (n < s.done.length ∧ y = .error (.notLeader, s.done.take n)))
  | .error x, y => (x.2.length ≤ n ∧ y = .error x) ∨ (n < x.2.length ∧ y = .error (.notLeader, x.2.take n))

theorem loop_stop {α : Type} (c : Conf) {put : RS → α → Except ROut RS}
    (hdone : ∀ s e s', put s e = .ok s' → s'.done = s.done ∧ s'.res = s.res)
    (hres : ∀ s e r, put { s with res := r } e = (put s e).map (fun s' => { s' with res := r }))
    (n : Nat) (t : List WRes) (l : List α) (s : RS) (hs : s.res = []) (hn : s.done.length ≤ n) :
    StopRel n t (loop c put l s) (loop c put l (stopped n t s)) := by
  induction l generalizing s with
  | nil => exact ⟨hs, Or.inl ⟨hn, rfl⟩⟩
  | cons e rest ih =>
    simp only [loop]
    have hp : put (stopped n t s) e = (put s e).map (fun s' => { s' with res := List.replicate (n - s.done.length) .ok ++ .perm :: t }) :=
      hres s e _
    cases h1 : put s e with
    | error o =>
      rw [h1] at hp
      rw [hp]
      exact Or.inl ⟨hn, rfl⟩
    | ok s1 =>
      rw [h1] at hp
      obtain ⟨hd, hr⟩ := hdone s e s1 h1
      have hp' : put (stopped n t s) e = .ok (stopped n t s1) := by
        rw [hp]; simp only [Except.map, stopped, hd]
      rw [hp']
      simp only
      unfold flushIf
      have hsz : (stopped n t s1).size = s1.size := rfl
      have hct : (stopped n t s1).count = s1.count := rfl
      rw [hsz, hct]
      by_cases hf : s1.size > c.maxSize ∨ s1.count > c.maxCount
      · simp only [if_pos hf]
        have e1 : flush s1 = .ok { done := s1.done ++ [s1.req], res := [] } := by
          unfold flush; rw [hr, hs]; rfl
        rw [e1]
        simp only
        by_cases hlt : s1.done.length < n
        · have e2 : flush (stopped n t s1) = .ok (stopped n t { done := s1.done ++ [s1.req], res := [] }) := by
            obtain ⟨m, hm⟩ : ∃ m, n - s1.done.length = m + 1 := ⟨n - s1.done.length - 1, by omega⟩
            have hm' : n - (s1.done ++ [s1.req]).length = m := by simp; omega
            unfold flush stopped
            simp only [hm, hm', List.replicate_succ, List.cons_append, List.headD_cons, List.tail_cons]
          rw [e2]
          exact ih _ rfl (by simp; omega)
        · have e2 : flush (stopped n t s1) = .error (.notLeader, s1.done) := by
            have hm : n - s1.done.length = 0 := by omega
            unfold flush stopped
            simp only [hm, List.replicate_zero, List.nil_append, List.headD_cons]
          rw [e2]
          simp only
          have hlen : s1.done.length = n := by rw [hd] at hlt ⊢; omega
          have hm := loop_mono c (fun s e s' h => (hdone s e s' h).1) rest
            { done := s1.done ++ [s1.req], res := [] }
          have fin : ∀ d : List RReq, s1.done ++ [s1.req] <+: d → n < d.length ∧ d.take n = s1.done := by
            rintro d ⟨d', rfl⟩
            refine ⟨by simp; omega, ?_⟩
            rw [List.append_assoc, List.take_append_of_le_length (by omega), List.take_of_length_le (by omega)]
          have hemp : ∀ l (s : RS), s.res = [] → ∀ s', loop c put l s = .ok s' → s'.res = [] := by
            intro l
            induction l with
            | nil => intro s hs s' h; cases h; exact hs
            | cons e l ihl =>
              intro s hs s' h
              simp only [loop] at h
              cases h1 : put s e with
              | error o => rw [h1] at h; cases h
              | ok s1 =>
                rw [h1] at h
                simp only at h
                have hr1 := (hdone s e s1 h1).2.trans hs
                cases h2 : flushIf c s1 with
                | error x => rw [h2] at h; cases h
                | ok s2 =>
                  rw [h2] at h
                  refine ihl s2 ?_ s' h
                  unfold flushIf at h2
                  split at h2
                  · unfold flush at h2
                    rw [hr1] at h2
                    cases h2; rfl
                  · cases h2; exact hr1
          cases hl : loop c put rest { done := s1.done ++ [s1.req], res := [] } with
          | ok s' =>
            rw [hl] at hm
            obtain ⟨f1, f2⟩ := fin _ hm
            exact ⟨hemp _ _ rfl _ hl, Or.inr ⟨f1, by rw [f2]⟩⟩
          | error x =>
            rw [hl] at hm
            obtain ⟨f1, f2⟩ := fin _ hm
            exact Or.inr ⟨f1, by rw [f2]⟩
      · simp only [if_neg hf]
        exact ih s1 (by rw [hr, hs]) (by rw [hd]; exact hn)

theorem indexOne_done {c : Conf} {k : Kind} {f : Files} {s s' : RS} {e : VKey × WriteInfo}
    (h : indexOne c k f s e = .ok s') : s'.done = s.done ∧ s'.res = s.res ∧ s'.req.data = s.req.data ∧
      s'.req.write = s.req.write := by
  unfold indexOne at h
  repeat' split at h
  all_goals first
    | (cases h; done)
    | (cases h; exact ⟨rfl, rfl, rfl, rfl⟩)

theorem indexOne_res {c : Conf} {k : Kind} {f : Files} (s : RS) (e : VKey × WriteInfo) (r : List WRes) :
    indexOne c k f { s with res := r } e = (indexOne c k f s e).map (fun s' => { s' with res := r }) := by
  unfold indexOne
  repeat' split
  all_goals simp_all [Except.map]

/-! ## The state of a restore whose writes all succeed -/

/-- The first loop, for index and document regions, takes up no records. -/
theorem index_none (c : Conf) (k : Kind) (f : Files) (res : List WRes) :
    match (if k = .store then .ok { res := res } else loop c (indexOne c k f) f.write { res := res } :
      Except (ROut × List RReq) RS) with
    | .ok s => (∀ r ∈ s.res, r ∈ res) ∧ ∀ r ∈ s.done ++ [s.req], r.data = [] ∧ r.write = []
    | .error x => ∀ r ∈ x.2, r.data = [] ∧ r.write = [] := by
  by_cases hk : k = .store
  · rw [if_pos hk]
    exact ⟨fun r hr => hr, by simp⟩
  · rw [if_neg hk]
    refine loop_inv c (fun s => (∀ r ∈ s.res, r ∈ res) ∧ ∀ r ∈ s.done ++ [s.req], r.data = [] ∧ r.write = [])
      (fun d => ∀ r ∈ d, r.data = [] ∧ r.write = [])
      (fun s hs r hr => hs.2 r (List.mem_append_left _ hr)) ?_ (fun s s' e _ _ h => (indexOne_done h).1)
      ⟨fun r hr => hr, by simp⟩
    intro s s' e _ hp h s'' hf
    obtain ⟨d1, d2, d3, d4⟩ := indexOne_done h
    have h0 : (∀ r ∈ s'.res, r ∈ res) ∧ ∀ r ∈ s'.done ++ [s'.req], r.data = [] ∧ r.write = [] := by
      refine ⟨by rw [d2]; exact hp.1, ?_⟩
      intro r hr
      rcases List.mem_append.1 hr with hr | hr
      · exact hp.2 r (List.mem_append_left _ (by rw [← d1]; exact hr))
      · rw [List.mem_singleton.1 hr, d3, d4]
        exact hp.2 s.req (by simp)
    unfold flushIf at hf
    split at hf
    · unfold flush at hf
      split at hf
      · cases hf
        refine ⟨fun r hr => h0.1 r (List.mem_of_mem_tail hr), ?_⟩
        intro r hr
        rcases List.mem_append.1 hr with hr | hr
        · exact h0.2 r hr
        · rw [List.mem_singleton.1 hr]; exact ⟨rfl, rfl⟩
      · cases hf
      · cases hf
        refine ⟨fun r hr => h0.1 r (List.mem_of_mem_tail hr), ?_⟩
        intro r hr
        rcases List.mem_append.1 hr with hr | hr
        · simp only at hr
          split at hr
          · exact h0.2 r hr
          · exact h0.2 r (List.mem_append_left _ hr)
        · rw [List.mem_singleton.1 hr]; exact ⟨rfl, rfl⟩
    · cases hf; exact h0

/-- The other loops end, and the last write holds what is left. -/
theorem restore_ok (c : Conf) (k : Kind) (f : Files) {res : List WRes} (hres : ∀ r ∈ res, r = .ok) {s0 : RS}
    (e0 : (if k = .store then .ok { res := res } else loop c (indexOne c k f) f.write { res := res }) = .ok s0)
    (hne : ¬ (f.data = [] ∧ f.write = [])) :
    ∃ s1 s2, loop c (putData c) f.data s0 = .ok s1 ∧ loop c (putWrite c) f.write s1 = .ok s2 ∧
      (∀ r ∈ s0.res, r = .ok) ∧ (∀ r ∈ s1.res, r = .ok) ∧
      restoreTxn c k f res = (.ok, s2.done ++ [s2.req]) ∧
      tot RReq.data s2 = f.data ∧ tot RReq.write s2 = f.write ∧
      (∀ n, ((s2.done ++ [s2.req]).take n).flatMap RReq.write ≠ [] →
        ((s2.done ++ [s2.req]).take n).flatMap RReq.data = f.data) := by
  have hin := index_none c k f res
  rw [e0] at hin
  have r0 : ∀ r ∈ s0.res, r = .ok := fun r hr => hres r (hin.1 r hr)
  have d0 : tot RReq.data s0 = [] := by
    simp only [tot, List.append_eq_nil_iff, List.flatMap_eq_nil_iff]
    exact ⟨fun r hr => (hin.2 r (List.mem_append_left _ hr)).1, (hin.2 s0.req (by simp)).1⟩
  have w0 : tot RReq.write s0 = [] := by
    simp only [tot, List.append_eq_nil_iff, List.flatMap_eq_nil_iff]
    exact ⟨fun r hr => (hin.2 r (List.mem_append_left _ hr)).2, (hin.2 s0.req (by simp)).2⟩
  obtain ⟨s1, e1, r1, _⟩ := loop_ok c (put := putData c) (l := f.data) (s := s0) r0
    (fun s e _ => ⟨_, rfl, rfl, rfl⟩) (fun _ => True) (fun _ _ _ _ _ _ => trivial) (fun _ _ _ _ _ => trivial) trivial
  have d1 : tot RReq.data s1 = f.data := by
    rw [loop_tot c (put := putData c) r0 RReq.data rfl (fun e => [e]) (fun s e _ => ⟨_, rfl, rfl, rfl, rfl⟩) e1, d0]; simp
  have w1 : tot RReq.write s1 = [] := by
    rw [loop_tot c (put := putData c) r0 RReq.write rfl (fun _ => []) (fun s e _ => ⟨_, rfl, rfl, rfl, by simp⟩) e1, w0]; simp
  have hw1 : ∀ r ∈ s1.done, r.write = [] := by
    intro r hr
    simp only [tot, List.append_eq_nil_iff, List.flatMap_eq_nil_iff] at w1
    exact w1.1 r hr
  let P : RS → Prop := fun s => tot RReq.data s = f.data ∧
    ∀ n, (s.done.take n).flatMap RReq.write ≠ [] → (s.done.take n).flatMap RReq.data = f.data
  obtain ⟨s2, e2, r2, p2⟩ := loop_ok c (put := putWrite c) (l := f.write) (s := s1) r1
    (fun s e _ => ⟨_, rfl, rfl, rfl⟩) P
    (by
      intro s s' e _ h hp
      simp only [putWrite, Except.ok.injEq] at h
      subst h
      exact hp)
    (by
      intro s s' hd hq hp
      have ht : tot RReq.data s' = f.data := (tot_flushed rfl (Or.inr ⟨hd, hq⟩)).trans hp.1
      refine ⟨ht, ?_⟩
      intro n hn
      by_cases hle : n ≤ s.done.length
      · rw [hd, List.take_append_of_le_length hle] at hn ⊢
        exact hp.2 n hn
      · rw [hd, List.take_of_length_le (by simp; omega)]
        rw [← ht]
        simp [tot, hd, hq])
    (by
      refine ⟨d1, ?_⟩
      intro n hn
      exfalso
      apply hn
      rw [List.flatMap_eq_nil_iff]
      exact fun r hr => hw1 r (List.mem_of_mem_take hr))
  have w2 : tot RReq.write s2 = f.write := by
    rw [loop_tot c (put := putWrite c) r1 RReq.write rfl (fun e => [e]) (fun s e _ => ⟨_, rfl, rfl, rfl, rfl⟩) e2, w1]; simp
  refine ⟨s1, s2, e1, e2, r0, r1, ?_, p2.1, w2, ?_⟩
  · unfold restoreTxn
    rw [if_neg hne, e0]
    simp only [e1, e2, lastWrite]
    cases hr : s2.res with
    | nil => rfl
    | cons r l => rw [hr] at r2; rw [List.headD_cons, r2 r List.mem_cons_self]
  · intro n hn
    by_cases hle : n ≤ s2.done.length
    · rw [List.take_append_of_le_length hle] at hn ⊢
      exact p2.2 n hn
    · rw [List.take_of_length_le (by simp; omega)]
      rw [← p2.1]; simp [tot]

end Verif.Backup
