import Verif.Stream.Model

/-! # Streams of answers (C108) -/

namespace Verif.Stream
open Verif.Codec

variable {σ ρ : Type}

/-! ## Specification -/

/-- The requests of a history that go on with a stream, each with its kind, whether it closes the
stream, and what the engine does. -/
def mine (id : Bytes) : List (Op σ ρ) → List (Bool × Eng σ ρ)
  | [] => []
  | .req _ r _ _ e :: l => if r.id = id then (r.close, e) :: mine id l else mine id l
  | .tick _ :: l => mine id l

/-- Their answers. -/
def mineOut (id : Bytes) : List (Op σ ρ × Option (Out ρ)) → List (Option (Out ρ))
  | [] => []
  | (.req _ r _ _ _, o) :: l => if r.id = id then o :: mineOut id l else mineOut id l
  | (.tick _, _) :: l => mineOut id l

/-- What the client of a stream is to be answered, from the limit it began with and the state the
engine left: page after page, as if there were nobody else, up to the one that says there is no
more, the one closed, or an error; then that the stream is expired. -/
def alone (k : Kind) (id : Bytes) (limit : Nat) : Option σ → List (Bool × Eng σ ρ) → List (Option (Out ρ))
  | _, [] => []
  | st, (close, e) :: l =>
    match (e limit st).status with
    | .ok =>
      some (.page id (e limit st).res (e limit st).more) ::
        if (e limit st).more = true ∧ close = false then alone k id limit (e limit st).state l
        else l.map (fun _ => some .expired)
    | .notFound =>
      if k = .scanLock then some .error :: l.map (fun _ => some .expired)
      else some (.page id (e limit st).res (e limit st).more) :: alone k id limit (e limit st).state l
    | .fail => some .error :: l.map (fun _ => some .expired)

/-- The client is never idle for longer than the interval when streams are cleaned up: `last` is the
time of its last request. -/
def Prompt (id : Bytes) : Int → List (Op σ ρ) → Prop
  | _, [] => True
  | last, .req _ r _ now _ :: l => Prompt id (if r.id = id then now else last) l
  | last, .tick now :: l => now ≤ last + interval ∧ Prompt id last l

/-- The client goes on with requests of the same kind, and no new stream is given its id. -/
def Fair (k : Kind) (id : Bytes) (l : List (Op σ ρ)) : Prop :=
  ∀ o ∈ l, match o with
    | .req k' r fresh _ _ => (r.id = id → k' = k) ∧ fresh ≠ id
    | .tick _ => True

/-- Nothing aborts the store. -/
def Calm (l : List (Op σ ρ × Option (Out ρ))) : Prop := ∀ x ∈ l, x.2 ≠ some .crash

/-! ## Lemmas -/

theorem find_remove_ne {m : Mgr σ} {a b : Bytes} (h : a ≠ b) : (m.remove b).find a = m.find a := by
  unfold Mgr.remove Mgr.find
  simp only
  induction m.streams with
  | nil => rfl
  | cons s l ih =>
    simp only [List.filter_cons]
    by_cases hb : s.id = b
    · have : ¬ s.id = a := fun e => h (e.symm.trans hb)
      simp only [hb, decide_true, Bool.not_true, Bool.false_eq_true, if_false, ih]
      rw [List.find?_cons_of_neg (by simpa using this)]
    · simp only [hb, decide_false, Bool.not_false, if_true, List.find?_cons, ih]

theorem find_remove_self (m : Mgr σ) (a : Bytes) : (m.remove a).find a = none := by
  unfold Mgr.remove Mgr.find
  simp

theorem find_put_ne {m : Mgr σ} {s : Stream σ} {a : Bytes} (h : a ≠ s.id) : (m.put s).find a = m.find a := by
  have := find_remove_ne (m := m) h
  unfold Mgr.put Mgr.find at *
  simp only [List.find?_cons]
  have h' : decide (s.id = a) = false := by simpa using fun e => h e.symm
  rw [h']
  exact this

theorem find_put_self (m : Mgr σ) (s : Stream σ) : (m.put s).find s.id = some s := by
  unfold Mgr.put Mgr.find
  simp

theorem find_id {m : Mgr σ} {a : Bytes} {s : Stream σ} (h : m.find a = some s) : s.id = a := by
  have := List.find?_some h
  simpa using this

theorem find_work_ne {m : Mgr σ} {s : Stream σ} {k : Kind} {r : Req} {now : Int} {e : Eng σ ρ} {a : Bytes}
    (h : a ≠ s.id) (hc : (work m s k r now e).2 ≠ .crash) : (work m s k r now e).1.find a = m.find a := by
  unfold work at hc ⊢
  simp only at hc ⊢
  split
  · split
    · exact find_put_ne h
    · exact find_remove_ne h
  · rename_i k' x hs
    simp only [hs] at hc
    split
    · split
      · exact find_put_ne h
      · exact find_remove_ne h
    · rename_i hk
      simp [hk] at hc

theorem find_request_ne {m : Mgr σ} {k : Kind} {r : Req} {f : Bytes} {now : Int} {e : Eng σ ρ} {a : Bytes}
    (hr : r.id ≠ a) (hf : f ≠ a) (hc : (request m k r f now e).2 ≠ .crash) :
    (request m k r f now e).1.find a = m.find a := by
  unfold request at hc ⊢
  split
  · rename_i s hs
    simp only [hs] at hc
    exact find_work_ne (by rw [find_id hs]; exact hr.symm) hc
  · rename_i hs
    simp only [hs] at hc
    split
    · rfl
    · rename_i h0
      simp only [h0, if_false] at hc
      split
      · rename_i h1
        simp [h1] at hc
      · rename_i h1
        simp only [h1] at hc
        exact find_work_ne (Ne.symm hf) hc

theorem find_filter {α : Type} {p q : α → Bool} {x : α} : ∀ {l : List α}, l.find? q = some x → p x = true →
    (l.filter p).find? q = some x := by
  intro l
  induction l with
  | nil => intro h _; cases h
  | cons a l ih =>
    intro h hp
    rw [List.filter_cons]
    by_cases ha : q a = true
    · rw [List.find?_cons_of_pos ha] at h
      cases h
      rw [if_pos hp, List.find?_cons_of_pos ha]
    · rw [List.find?_cons_of_neg ha] at h
      split
      · rw [List.find?_cons_of_neg ha]
        exact ih h hp
      · exact ih h hp

theorem find_recycle {m : Mgr σ} {a : Bytes} {s : Stream σ} {now : Int} (h : m.find a = some s)
    (ht : now ≤ s.last + interval) : (recycle m now).find a = some s := by
  unfold recycle Mgr.find at *
  refine find_filter h ?_
  simp only [Bool.not_eq_true', decide_eq_false_iff_not]
  omega

theorem find_recycle_none {m : Mgr σ} {a : Bytes} {now : Int} (h : m.find a = none) :
    (recycle m now).find a = none := by
  unfold recycle Mgr.find at *
  rw [List.find?_eq_none] at h ⊢
  exact fun x hx => h x (List.mem_filter.1 hx).1

theorem ended {id : Bytes} {k : Kind} (hid : id ≠ []) : ∀ {l : List (Op σ ρ)} {m : Mgr σ}, m.find id = none →
    Fair k id l → Calm (run m l) → mineOut id (run m l) = (mine id l).map (fun _ => some .expired) := by
  intro l
  induction l with
  | nil => intro m _ _ _; rfl
  | cons o l ih =>
    intro m hm hf hc
    have hf' : Fair k id l := fun o ho => hf o (List.mem_cons_of_mem _ ho)
    have hc' : Calm (run (step m o).1 l) := fun x hx => hc x (List.mem_cons_of_mem _ hx)
    cases o with
    | tick t =>
      simp only [run, mineOut, mine]
      exact ih (find_recycle_none hm) hf' hc'
    | req k' r f t e =>
      have ho := hf _ (List.mem_cons_self ..)
      have hco : (request m k' r f t e).2 ≠ .crash := by
        have := hc _ (List.mem_cons_self ..)
        simpa [step] using this
      simp only [run, mineOut, mine]
      by_cases hr : r.id = id
      · have hreq : request m k' r f t e = (m, .expired) := by
          unfold request
          rw [hr, hm]
          simp [hid]
        simp only [hr, if_true, List.map_cons, step, hreq]
        rw [ih hm hf' (by simpa [step, hreq] using hc')]
      · simp only [hr, if_false, step]
        exact ih ((find_request_ne hr ho.2 hco).trans hm) hf' hc'

theorem work_own {m : Mgr σ} {s : Stream σ} {k : Kind} {st : Option σ} {r : Req} {now : Int} {e : Eng σ ρ}
    (hs : s.state = st.map (fun x => (k, x))) :
    work m s k r now e =
      (if stays k r.close (e s.limit st) then
        m.put { s with last := now, state := (e s.limit st).state.map (fun x => (k, x)) } else m.remove s.id,
        answer k s.id (e s.limit st)) := by
  unfold work
  cases st with
  | none => simp [hs]
  | some x => simp [hs]

theorem alone_cons (k : Kind) (id : Bytes) (limit : Nat) (st : Option σ) (c : Bool) (e : Eng σ ρ)
    (l : List (Bool × Eng σ ρ)) :
    alone k id limit st ((c, e) :: l) =
      some (answer k id (e limit st)) ::
        if stays k c (e limit st) then alone k id limit (e limit st).state l else l.map (fun _ => some .expired) := by
  unfold answer stays
  rw [alone]
  cases h : (e limit st).status with
  | ok =>
    simp only
    congr 1
    cases hm : (e limit st).more <;> cases c <;> simp
  | notFound => cases k <;> simp
  | fail => simp

/-! ## Properties -/

/-- A stream that has been given to a client: as long as the client is not idle for longer than the
interval, its answers are those it would have alone, whatever other requests and streams there are;
after the last page, an error or a close it is told that the stream is expired, for ever. -/
theorem C108_alone {id : Bytes} {k : Kind} {limit : Nat} (hid : id ≠ []) :
    ∀ {l : List (Op σ ρ)} {m : Mgr σ} {st : Option σ} {s : Stream σ}, m.find id = some s → s.limit = limit →
      s.state = st.map (fun x => (k, x)) → Prompt id s.last l → Fair k id l → Calm (run m l) →
      mineOut id (run m l) = alone k id limit st (mine id l) := by
  intro l
  induction l with
  | nil => intro m st s _ _ _ _ _ _; rfl
  | cons o l ih =>
    intro m st s hm hl hs hp hf hc
    have hf' : Fair k id l := fun o ho => hf o (List.mem_cons_of_mem _ ho)
    have hc' : Calm (run (step m o).1 l) := fun x hx => hc x (List.mem_cons_of_mem _ hx)
    cases o with
    | tick t =>
      simp only [run, mineOut, mine]
      exact ih (find_recycle hm hp.1) hl hs hp.2 hf' hc'
    | req k' r f t e =>
      have ho := hf _ (List.mem_cons_self ..)
      have hco : (request m k' r f t e).2 ≠ .crash := by
        have := hc _ (List.mem_cons_self ..)
        simpa [step] using this
      simp only [run, mineOut, mine]
      simp only [Prompt] at hp
      by_cases hr : r.id = id
      · have hk : k' = k := ho.1 hr
        subst hk
        have hsid : s.id = id := find_id hm
        have hreq : request m k' r f t e = work m s k' r t e := by
          unfold request
          rw [hr, hm]
        rw [work_own hs, hl, hsid] at hreq
        simp only [hr, if_true] at hp ⊢
        rw [alone_cons]
        simp only [step, hreq] at hc' ⊢
        by_cases hst : stays k' r.close (e limit st) = true
        · simp only [hst, if_true] at hc' ⊢
          have hput := find_put_self m ⟨id, limit, (e limit st).state.map (fun x => (k', x)), t⟩
          exact congrArg _ (ih hput rfl rfl hp hf' hc')
        · simp only [hst, Bool.false_eq_true, if_false] at hc' ⊢
          exact congrArg _ (ended hid (find_remove_self m id) hf' hc')
      · simp only [hr, if_false, step] at hp ⊢
        exact ih ((find_request_ne hr ho.2 hco).trans hm) hl hs hp hf' hc'

/-- A request without a stream's id is given a new one, with the limit asked for, and its answer is
the first of those it would have alone; what follows is as in `C108_alone`. -/
theorem C108_begin {m : Mgr σ} {k : Kind} {r : Req} {fresh : Bytes} {now : Int} {e : Eng σ ρ} {l : List (Op σ ρ)}
    (hr : r.id = []) (hm : m.find [] = none) (hfr : m.find fresh = none) (hid : fresh ≠ [])
    (hp : Prompt fresh now l) (hf : Fair k fresh l) (hc : Calm (run m (.req k r fresh now e :: l))) :
    (step m (.req k r fresh now e)).2 :: mineOut fresh (run (step m (.req k r fresh now e)).1 l) =
      alone k fresh r.limit none ((r.close, e) :: mine fresh l) := by
  have hreq : request m k r fresh now e =
      work m ⟨fresh, r.limit, none, now⟩ k r now e := by
    unfold request
    rw [hr, hm]
    simp [hfr]
  rw [work_own (st := none) rfl] at hreq
  have hc' : Calm (run (step m (.req k r fresh now e)).1 l) := fun x hx => hc x (List.mem_cons_of_mem _ hx)
  rw [alone_cons]
  simp only [step, hreq] at hc' ⊢
  by_cases hst : stays k r.close (e r.limit none) = true
  · simp only [hst, if_true] at hc' ⊢
    exact congrArg _ (C108_alone hid (find_put_self m ⟨fresh, r.limit, (e r.limit none).state.map (fun x => (k, x)), now⟩)
      rfl rfl hp hf hc')
  · simp only [hst, Bool.false_eq_true, if_false] at hc' ⊢
    exact congrArg _ (ended hid (find_remove_self m fresh) hf hc')

/-- A stream is never without an id, so that a request without id is never taken to go on with one:
this is kept by every step that gives new streams an id. -/
theorem C108_no_empty {m : Mgr σ} {o : Op σ ρ} (hm : m.find [] = none)
    (ho : match o with | .req _ _ fresh _ _ => fresh ≠ [] | .tick _ => True) : (step m o).1.find [] = none := by
  cases o with
  | tick t => exact find_recycle_none hm
  | req k r f t e =>
    show (request m k r f t e).1.find [] = none
    have hw : ∀ s : Stream σ, s.id ≠ [] → (work m s k r t e).1.find [] = none := by
      intro s hs
      by_cases hc : (work m s k r t e).2 = .crash
      · have : (work m s k r t e).1 = ⟨[]⟩ := by
          have ha : ∀ o : Ran σ ρ, answer k s.id o ≠ .crash := by
            intro o
            unfold answer
            cases o.status <;> cases k <;> simp
          unfold work at hc ⊢
          simp only at hc ⊢
          split
          · rename_i h
            simp only [h] at hc
            exact absurd hc (ha _)
          · rename_i k' x h
            simp only [h] at hc
            split
            · rename_i h1
              simp only [h1, if_true] at hc
              exact absurd hc (ha _)
            · rfl
        rw [this]
        rfl
      · rw [find_work_ne (Ne.symm hs) hc]
        exact hm
    unfold request
    split
    · rename_i s hs
      refine hw s ?_
      rw [find_id hs]
      intro e
      rw [e, hm] at hs
      cases hs
    · split
      · exact hm
      · split
        · rfl
        · exact hw _ ho

/-- A request never aborts the store if it begins a stream under an id not in use, or names a stream
of its own kind, or one that is unknown. -/
theorem C108_calm {m : Mgr σ} {k : Kind} {r : Req} {fresh : Bytes} {now : Int} {e : Eng σ ρ}
    (hfr : m.find fresh = none)
    (hk : ∀ s, m.find r.id = some s → ∀ x, s.state = some x → x.1 = k) : (request m k r fresh now e).2 ≠ .crash := by
  have ha : ∀ (i : Bytes) (o : Ran σ ρ), answer k i o ≠ .crash := by
    intro i o
    unfold answer
    cases o.status <;> cases k <;> simp
  have hw : ∀ s : Stream σ, (∀ x, s.state = some x → x.1 = k) → (work m s k r now e).2 ≠ .crash := by
    intro s hs
    unfold work
    simp only
    split
    · exact ha _ _
    · rename_i k' x h
      rw [if_pos (hs _ h)]
      exact ha _ _
  unfold request
  split
  · rename_i s hs
    exact hw s (hk s hs)
  · split
    · simp
    · rw [hfr]
      exact hw ⟨fresh, r.limit, none, now⟩ (fun x h => by cases h)

/-- A cleaning up removes exactly the streams idle for longer than the interval. -/
theorem C108_recycle (m : Mgr σ) (now : Int) (s : Stream σ) :
    s ∈ (recycle m now).streams ↔ s ∈ m.streams ∧ now - s.last ≤ 60000 := by
  unfold recycle interval
  simp only [List.mem_filter, Bool.not_eq_true', decide_eq_false_iff_not]
  constructor
  · rintro ⟨h1, h2⟩
    exact ⟨h1, by omega⟩
  · rintro ⟨h1, h2⟩
    exact ⟨h1, by omega⟩

/-- A request that goes on with a stream of another kind aborts the store, and with it all streams. -/
theorem C108_kind_false {m : Mgr σ} {k k' : Kind} {r : Req} {s : Stream σ} {x : σ} (fresh : Bytes) (now : Int)
    (e : Eng σ ρ) (hs : m.find r.id = some s) (hx : s.state = some (k', x)) (hk : k' ≠ k) :
    (request m k r fresh now e).2 = .crash ∧ (request m k r fresh now e).1.streams = [] := by
  have : request m k r fresh now e = (⟨[]⟩, .crash) := by
    unfold request
    simp only [hs]
    unfold work
    simp only [hx, hk, if_false]
  rw [this]
  exact ⟨rfl, rfl⟩

/-- The limit of a request that goes on with a stream is of no effect. -/
theorem C108_limit_false {m : Mgr σ} {k : Kind} {r : Req} {s : Stream σ} (fresh : Bytes) (now : Int)
    (e : Eng σ ρ) (hs : m.find r.id = some s) (limit : Nat) :
    request m k { r with limit := limit } fresh now e = request m k r fresh now e := by
  unfold request
  simp only [hs]
  rfl

end Verif.Stream
