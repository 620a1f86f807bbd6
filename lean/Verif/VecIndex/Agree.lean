import Verif.VecIndex.KindLemmas

/-! # An index that agrees with the writes up to a point -/

namespace Verif.VecIndex

/-! ### What the last write says -/

theorem val_none {o : Op} {i : Nat} : o.val i = none ↔ i ∉ o.ids := by
  cases o with
  | add up vs =>
    simp only [Op.val, Op.ids, Option.map_eq_none_iff, List.getLast?_eq_none_iff]
    exact held_eq_nil
  | del ids =>
    simp only [Op.val, Op.ids]
    by_cases h : i ∈ ids
    · simp [h]
    · simp [h]

theorem lastVal_append (a b : List Op) (i : Nat) :
    lastVal (a ++ b) i = (lastVal b i).or (lastVal a i) := by
  unfold lastVal; rw [List.reverse_append, List.findSome?_append]

theorem lastVal_nil (i : Nat) : lastVal [] i = none := rfl

theorem lastVal_single (o : Op) (i : Nat) : lastVal [o] i = o.val i := by
  unfold lastVal
  simp only [List.reverse_singleton, List.findSome?_cons, List.findSome?_nil]
  cases o.val i <;> rfl

theorem lastVal_cons (o : Op) (os : List Op) (i : Nat) :
    lastVal (o :: os) i = (lastVal os i).or (o.val i) := by
  have := lastVal_append [o] os i
  rwa [lastVal_single] at this

theorem lastVal_none {os : List Op} {i : Nat} : lastVal os i = none ↔ ∀ o ∈ os, i ∉ o.ids := by
  induction os with
  | nil => simp [lastVal_nil]
  | cons o os ih =>
    rw [lastVal_cons]
    simp only [List.mem_cons, forall_eq_or_imp, Option.or_eq_none_iff]
    rw [ih, val_none]
    exact And.comm

/-- Calls that are fine do what the last of them says. -/
theorem runAll_fine {g : Cfg} (hg : g.ok = true) {os : List Op} {c : Content}
    (h : fineAll g c os = true) (i : Nat) :
    held (os.foldl (fun c o => (o.run g c).1) c) i =
      match lastVal os i with | some v => v.toList | none => held c i := by
  induction os generalizing c with
  | nil => rfl
  | cons o os ih =>
    simp only [fineAll, Bool.and_eq_true] at h
    rw [List.foldl_cons, ih h.2, Op.run_fine hg h.1, lastVal_cons]
    cases lastVal os i with
    | none => cases o.val i <;> rfl
    | some v => rfl

/-! ### Writes of a log -/

theorem writes_append (a b : List Entry) : writes (a ++ b) = writes a ++ writes b := by
  unfold writes; rw [List.flatMap_append]

theorem writes_take (log : List Entry) (n : Nat) :
    (writes log).take (off log n) = writes (log.take n) := by
  have : writes log = writes (log.take n) ++ writes (log.drop n) := by
    rw [← writes_append, List.take_append_drop]
  rw [this]
  unfold off
  exact List.take_left' rfl

theorem off_le (log : List Entry) (n : Nat) : off log n ≤ (writes log).length := by
  have := congrArg List.length (writes_take log n)
  rw [List.length_take] at this
  have h2 : (writes (log.take n)).length = off log n := rfl
  omega

theorem off_mono (log : List Entry) {m n : Nat} (h : m ≤ n) : off log m ≤ off log n := by
  have : log.take n = log.take m ++ (log.take n).drop m := by
    conv => lhs; rw [← List.take_append_drop m (log.take n)]
    rw [List.take_take, Nat.min_eq_left h]
  unfold off
  rw [this, writes_append, List.length_append]
  omega

theorem off_succ {log : List Entry} {n : Nat} {e : Entry} (h : log[n]? = some e) :
    off log (n + 1) = off log n + e.calls.length := by
  unfold off
  rw [List.take_add_one, h, writes_append, List.length_append]
  simp [writes, Entry.ops]

theorem off_append {log : List Entry} {n : Nat} (e : Entry) (h : n ≤ log.length) :
    off (log ++ [e]) n = off log n := by
  unfold off; rw [List.take_append_of_le_length h]

/-- The write at a position. -/
theorem writes_get {log : List Entry} {n p : Nat} {e : Entry} (h : log[n]? = some e)
    {o : Op × Chk} (ho : e.calls[p]? = some o) : (writes log)[off log n + p]? = some o.1 := by
  have hlt : n < log.length := (List.getElem?_eq_some_iff.1 h).1
  have : writes log = writes (log.take n) ++ (e.ops ++ writes (log.drop (n + 1))) := by
    conv => lhs; rw [← List.take_append_drop n log]
    rw [writes_append, List.drop_eq_getElem_cons hlt, ← List.singleton_append, writes_append]
    have : log[n] = e := (List.getElem?_eq_some_iff.1 h).2
    rw [this]
    simp [writes]
  rw [this, List.getElem?_append_right (by show (writes (log.take n)).length ≤ _; unfold off; omega)]
  have hp : p < e.calls.length := (List.getElem?_eq_some_iff.1 ho).1
  have h0 : off log n + p - (writes (log.take n)).length = p := by unfold off; omega
  rw [h0, List.getElem?_append_left (by simp [Entry.ops, hp])]
  simp [Entry.ops, ho]

/-! ### Agreement -/

/-- The contents are right, with respect to the first `m` writes, for every id that the writes from
`n` on do not name. -/
structure Agree (L : List Op) (c : Content) (n m : Nat) : Prop where
  le : n ≤ m
  top : m ≤ L.length
  ok : ∀ i, (∀ o ∈ (L.take m).drop n, i ∉ o.ids) → held c i = (lastWrite (L.take m) i).toList

theorem Agree.down {L : List Op} {c : Content} {n n' m : Nat} (h : Agree L c n m) (hn : n' ≤ n) :
    Agree L c n' m :=
  ⟨Nat.le_trans hn h.le, h.top, fun i hi => h.ok i (fun o ho => hi o
    (by rw [show n = n' + (n - n') from by omega, ← List.drop_drop] at ho
        exact List.mem_of_mem_drop ho))⟩

theorem Agree.grow {L : List Op} {c : Content} {n m m' : Nat} (h : Agree L c n m) (hm : m ≤ m')
    (ht : m' ≤ L.length) : Agree L c n m' := by
  refine ⟨Nat.le_trans h.le hm, ht, fun i hi => ?_⟩
  have hs : L.take m' = L.take m ++ (L.take m').drop m := by
    conv => lhs; rw [← List.take_append_drop m (L.take m')]
    rw [List.take_take, Nat.min_eq_left hm]
  have h1 : lastVal ((L.take m').drop m) i = none :=
    lastVal_none.2 (fun o ho => hi o (by
      rw [show m = n + (m - n) from by have := h.le; omega, ← List.drop_drop] at ho
      exact List.mem_of_mem_drop ho))
  rw [h.ok i (fun o ho => hi o (by
    rw [hs, List.drop_append_of_le_length (by rw [List.length_take]; have := h.le; have := h.top; omega)]
    exact List.mem_append.2 (.inl ho)))]
  unfold lastWrite
  conv => rhs; rw [hs, lastVal_append, h1]
  rfl

/-- A block of writes is done. -/
theorem Agree.block {L : List Op} {c c' : Content} {n n' m : Nat} (h : Agree L c n m) (hn : n ≤ n')
    (hm : n' ≤ m)
    (hc : ∀ i, held c' i = match lastVal ((L.take n').drop n) i with
      | some v => v.toList | none => held c i) : Agree L c' n' m := by
  refine ⟨hm, h.top, fun i hi => ?_⟩
  have hs : (L.take m).drop n = (L.take n').drop n ++ (L.take m).drop n' := by
    have h1 : L.take m = L.take n' ++ (L.take m).drop n' := by
      conv => lhs; rw [← List.take_append_drop n' (L.take m)]
      rw [List.take_take, Nat.min_eq_left hm]
    conv => lhs; rw [h1]
    rw [List.drop_append_of_le_length (by rw [List.length_take]; have := h.top; omega)]
  rw [hc i]
  have h0 : lastVal ((L.take m).drop n') i = none := lastVal_none.2 hi
  cases hv : lastVal ((L.take n').drop n) i with
  | none =>
    exact h.ok i (fun o ho => by
      rw [hs] at ho
      rcases List.mem_append.1 ho with ho | ho
      · exact lastVal_none.1 hv o ho
      · exact hi o ho)
  | some v =>
    have : lastVal (L.take m) i = some v := by
      have h2 : L.take m = L.take n ++ (L.take m).drop n := by
        conv => lhs; rw [← List.take_append_drop n (L.take m)]
        rw [List.take_take, Nat.min_eq_left h.le]
      rw [h2, lastVal_append, hs, lastVal_append, h0, hv]; rfl
    unfold lastWrite
    rw [this]; rfl

/-- One write is done. -/
theorem Agree.one {g : Cfg} (hg : g.ok = true) {L : List Op} {c : Content} {n m : Nat} {o : Op}
    (h : Agree L c n m) (ho : L[n]? = some o) (hm : n < m) (hf : o.fine g c = true) :
    Agree L (o.run g c).1 (n + 1) m := by
  refine h.block (Nat.le_succ n) hm (fun i => ?_)
  have : (L.take (n + 1)).drop n = [o] := by
    rw [List.take_add_one, ho, List.drop_append_of_le_length
      (by rw [List.length_take]; have := h.top; omega)]
    rw [List.drop_of_length_le (by rw [List.length_take]; omega)]; rfl
  rw [this, lastVal_single]
  exact Op.run_fine hg hf i

theorem Agree.full {L : List Op} {c : Content} {n m : Nat} (hn : n ≤ m) (ht : m ≤ L.length)
    (h : ∀ i, held c i = (lastWrite (L.take m) i).toList) : Agree L c n m :=
  ⟨hn, ht, fun i _ => h i⟩

theorem Agree.append {L : List Op} {c : Content} {n m : Nat} (h : Agree L c n m) (M : List Op) :
    Agree (L ++ M) c n m :=
  ⟨h.le, by rw [List.length_append]; have := h.top; omega, by
    rw [List.take_append_of_le_length h.top]; exact h.ok⟩

/-! ### The data -/

theorem held_store (o : Op) (d : Content) (i : Nat) :
    held (o.store d) i = match o.val i with | some v => v.toList | none => held d i := by
  cases o with
  | del ids =>
    simp only [Op.store, Op.val]
    rw [held_removeIds]
    by_cases h : i ∈ ids
    · rw [if_pos h, if_pos h]; rfl
    · rw [if_neg h, if_neg h]
  | add up vs =>
    simp only [Op.store, Op.val]
    induction vs generalizing d with
    | nil => rfl
    | cons p vs ih =>
      rw [List.foldl_cons, ih, held_cons]
      by_cases h : held vs i = []
      · rw [h]
        by_cases hp : p.1 = i
        · rw [if_pos hp]
          simp only [List.getLast?_nil, Option.map_none, held_addPoint]
          rw [if_pos hp.symm]; rfl
        · rw [if_neg hp]
          simp only [List.getLast?_nil, Option.map_none, held_addPoint, List.nil_append]
          rw [if_neg (fun e => hp e.symm)]
      · have : ((if p.1 = i then [p.2] else []) ++ held vs i).getLast? = (held vs i).getLast? := by
          rw [List.getLast?_append]
          cases hq : (held vs i).getLast? with
          | none => exact absurd (List.getLast?_eq_none_iff.1 hq) h
          | some v => rfl
        rw [this]
        cases hq : (held vs i).getLast? with
        | none => exact absurd (List.getLast?_eq_none_iff.1 hq) h
        | some v => rfl

theorem held_entry_store (e : Entry) (d : Content) (i : Nat) :
    held (e.store d) i = match lastVal e.ops i with | some v => v.toList | none => held d i := by
  unfold Entry.store Entry.ops
  generalize e.calls = cs
  induction cs generalizing d with
  | nil => rfl
  | cons c cs ih =>
    rw [List.foldl_cons, ih, held_store, List.map_cons, lastVal_cons]
    cases lastVal (cs.map (·.1)) i with
    | none => cases c.1.val i <;> rfl
    | some v => rfl

/-! ### Replay -/

theorem lastVal_add_append (u u' u'' : Bool) (vs ws : List (Nat × Nat)) (i : Nat) :
    (Op.add u (vs ++ ws)).val i = ((Op.add u' ws).val i).or ((Op.add u'' vs).val i) := by
  simp only [Op.val, held_append, List.getLast?_append]
  cases (held ws i).getLast? <;> rfl

theorem lastVal_del_append (ids js : List Nat) (i : Nat) :
    (Op.del (ids ++ js)).val i = ((Op.del js).val i).or ((Op.del ids).val i) := by
  simp only [Op.val, List.mem_append]
  by_cases h1 : i ∈ js
  · simp [h1]
  · by_cases h2 : i ∈ ids <;> simp [h1, h2]

theorem val_add_nil (u : Bool) (i : Nat) : (Op.add u []).val i = none := rfl

theorem val_del_nil (i : Nat) : (Op.del []).val i = none := rfl

theorem lastVal_gather (n : Nat) (es : List Entry) (hp : es.all Entry.plain = true)
    (vs : List (Nat × Nat)) (ids : List Nat) (hv : vs = [] ∨ ids = []) (i : Nat) :
    lastVal (gather n es vs ids) i =
      (lastVal (writes es) i).or (((Op.add true vs).val i).or ((Op.del ids).val i)) := by
  induction es generalizing vs ids with
  | nil =>
    unfold gather
    show _ = Option.or none _
    by_cases h1 : vs = []
    · subst h1
      rw [val_add_nil]
      by_cases h2 : ids = []
      · subst h2; rfl
      · rw [if_neg (by simp), if_pos (by simpa using h2), lastVal_single]; simp
    · rw [if_pos (by simpa using h1), lastVal_single, hv.resolve_left h1, val_del_nil]; simp
  | cons e es ih =>
    rw [List.all_cons, Bool.and_eq_true] at hp
    have hw : writes (e :: es) = e.ops ++ writes es := rfl
    rw [hw, lastVal_append]
    have ih := ih hp.2
    unfold gather
    obtain ⟨cmd, valid⟩ := e
    cases cmd with
    | add up ws =>
      have hval : valid = true := hp.1
      subst hval
      have hops : Entry.ops ⟨.add up ws, true⟩ = [.add up ws] := rfl
      rw [hops, lastVal_single]
      have hpre : ∀ X, lastVal ((if (!ids.isEmpty) = true then [Op.del ids] else []) ++ X) i =
          (lastVal X i).or ((Op.del ids).val i) := by
        intro X
        rw [lastVal_append]
        by_cases h : ids = []
        · subst h; rfl
        · rw [if_pos (by simpa using h), lastVal_single]
      simp only
      split
      · rw [hpre, lastVal_cons, ih [] [] (.inl rfl), val_add_nil, val_del_nil,
          lastVal_add_append true up true]
        cases lastVal (writes es) i <;> cases (Op.add up ws).val i <;>
          cases (Op.add true vs).val i <;> rfl
      · rw [hpre, ih (vs ++ ws) [] (.inr rfl), val_del_nil, lastVal_add_append true up true]
        cases lastVal (writes es) i <;> cases (Op.add up ws).val i <;>
          cases (Op.add true vs).val i <;> rfl
    | del js =>
      have hval : valid = true := hp.1
      subst hval
      have hops : lastVal (Entry.ops ⟨.del js, true⟩) i = (Op.del js).val i := by
        cases js with
        | nil => rfl
        | cons a l => exact lastVal_single _ i
      rw [hops]
      have hpre : ∀ X, lastVal ((if (!vs.isEmpty) = true then [Op.add true vs] else []) ++ X) i =
          (lastVal X i).or ((Op.add true vs).val i) := by
        intro X
        rw [lastVal_append]
        by_cases h : vs = []
        · subst h; rfl
        · rw [if_pos (by simpa using h), lastVal_single]
      have hcomm : ((Op.add true vs).val i).or ((Op.del ids).val i) =
          ((Op.del ids).val i).or ((Op.add true vs).val i) := by
        rcases hv with rfl | rfl
        · rw [val_add_nil]; simp
        · rw [val_del_nil]; simp
      rw [hcomm]
      simp only
      split
      · rw [hpre, lastVal_cons, ih [] [] (.inl rfl), val_add_nil, val_del_nil, lastVal_del_append]
        cases lastVal (writes es) i <;> cases (Op.del js).val i <;>
          cases (Op.del ids).val i <;> rfl
      · rw [hpre, ih [] (ids ++ js) (.inl rfl), val_add_nil, lastVal_del_append]
        cases lastVal (writes es) i <;> cases (Op.del js).val i <;>
          cases (Op.del ids).val i <;> rfl
    | batch up ws js =>
      have : Entry.ops ⟨.batch up ws js, valid⟩ = [] := by
        unfold Entry.ops; rw [List.isEmpty_iff.1 hp.1]; rfl
      rw [this, lastVal_nil]; simpa using ih vs ids hv
    | txn ws js =>
      have : Entry.ops ⟨.txn ws js, valid⟩ = [] := by
        unfold Entry.ops; rw [List.isEmpty_iff.1 hp.1]; rfl
      rw [this, lastVal_nil]; simpa using ih vs ids hv
    | rebuild =>
      have : Entry.ops ⟨.rebuild, valid⟩ = [] := by
        unfold Entry.ops; rw [List.isEmpty_iff.1 hp.1]; rfl
      rw [this, lastVal_nil]; simpa using ih vs ids hv
    | other =>
      have : Entry.ops ⟨.other, valid⟩ = [] := by
        unfold Entry.ops; rw [List.isEmpty_iff.1 hp.1]; rfl
      rw [this, lastVal_nil]; simpa using ih vs ids hv

/-- Replaying keeps an index right and moves it on. -/
theorem Agree.replay {g : Cfg} (hg : g.ok = true) {log : List Entry} {x : Idx} {e m : Nat}
    (h : Agree (writes log) x.content (off log x.applyLog) m) (he : off log e ≤ m)
    (hp : (span log x.applyLog e).all Entry.plain = true)
    (hf : fineAll g x.content (gather g.buildBatch (span log x.applyLog e) [] []) = true)
    (hl : e ≤ log.length) :
    Agree (writes log) (replayTo g log x e).content (off log (replayTo g log x e).applyLog) m := by
  unfold replayTo
  by_cases h1 : e ≤ x.applyLog + 1
  · rw [if_pos h1]; exact h
  · rw [if_neg h1]
    have hlen : (span log x.applyLog e).length = e - 1 - x.applyLog := by
      unfold span; rw [List.length_drop, List.length_take]; omega
    have hne : span log x.applyLog e ≠ [] := by
      intro h0; rw [h0] at hlen; simp at hlen; omega
    have happ : x.applyLog + (span log x.applyLog e).length = e - 1 := by rw [hlen]; omega
    simp only
    rw [if_neg hne, happ]
    refine h.block (off_mono log (by omega))
      (Nat.le_trans (off_mono log (by omega)) he) (fun i => ?_)
    have hb : ((writes log).take (off log (e - 1))).drop (off log x.applyLog) =
        writes (span log x.applyLog e) := by
      rw [writes_take]
      have : log.take (e - 1) = log.take x.applyLog ++ span log x.applyLog e := by
        unfold span
        conv => lhs; rw [← List.take_append_drop x.applyLog (log.take (e - 1))]
        rw [List.take_take, Nat.min_eq_left (by omega)]
      rw [this, writes_append]
      exact List.drop_left' rfl
    rw [hb, runAll_fine hg hf, lastVal_gather _ _ hp [] [] (.inl rfl), val_add_nil, val_del_nil]
    cases lastVal (writes (span log x.applyLog e)) i <;> rfl

/-! ### Filling from the data -/

theorem held_fill {g : Cfg} (hg : g.ok = true) {d : Content} (hd : (d.map (·.1)).Nodup) (i : Nat) :
    held (fillFrom g d) i = held d i := by
  have hb : 0 < g.buildBatch := by
    simp only [Cfg.ok, Bool.and_eq_true, decide_eq_true_eq] at hg; exact hg.2
  unfold fillFrom
  suffices H : ∀ (bs : List (List (Nat × Nat))) (c : Content), (bs.flatten.map (·.1)).Nodup →
      (∀ j ∈ bs.flatten.map (·.1), held c j = []) →
      held (bs.foldl (fun c b => (addP g false c b).1) c) i = held c i ++ held bs.flatten i by
    have := H (pieces g.buildBatch d) [] (by rw [pieces_flatten hb]; exact hd) (fun _ _ => rfl)
    rw [pieces_flatten hb] at this
    rw [this]; rfl
  intro bs
  induction bs with
  | nil => intro c _ _; simp [held_nil]
  | cons b bs ih =>
    intro c h1 h2
    rw [List.flatten_cons, List.map_append, List.nodup_append] at h1
    rw [List.flatten_cons, List.map_append] at h2
    have ha := (addP_spec hg (up := false) (c := c) h1.1
      (.inr (.inr (fun j hj => h2 j (List.mem_append.2 (.inl hj)))))).1
    rw [List.foldl_cons, ih _ h1.2.1 (fun j hj => by
      rw [ha j, if_neg (fun hm => h1.2.2 j hm j hj rfl)]
      exact h2 j (List.mem_append.2 (.inr hj))), ha i, List.flatten_cons, held_append]
    by_cases hi : i ∈ b.map (·.1)
    · rw [if_pos hi, h2 i (List.mem_append.2 (.inl hi))]; rfl
    · rw [if_neg hi, held_eq_nil.2 hi]; rfl

end Verif.VecIndex
