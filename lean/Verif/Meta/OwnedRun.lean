/-
Tables and their indexes: the invariant holds in every state of the runs of `okIndexes`.
-/
import Verif.Meta.Owned

namespace Verif.Meta

theorem mem_createdIds {i : Int} {ops : List ObjOp} : i ∈ createdIds ops ↔ ∃ r, .create i r ∈ ops := by
  induction ops with
  | nil => exact ⟨fun h => (by cases h), fun ⟨_, h⟩ => (by cases h)⟩
  | cons op ops ih =>
    cases op with
    | create id r =>
      rw [createdIds, List.mem_cons, ih]
      constructor
      · rintro (e | ⟨r', h⟩)
        · exact ⟨r, by rw [e]; exact List.mem_cons_self⟩
        · exact ⟨r', List.mem_cons_of_mem _ h⟩
      · rintro ⟨r', h⟩
        rcases List.mem_cons.1 h with e | h
        · cases e; exact Or.inl rfl
        · exact Or.inr ⟨r', h⟩
    | update id n df =>
      rw [createdIds, ih]
      · refine ⟨fun ⟨r', h⟩ => ⟨r', List.mem_cons_of_mem _ h⟩, fun ⟨r', h⟩ => ⟨r', ?_⟩⟩
        rcases List.mem_cons.1 h with e | h
        · cases e
        · exact h
      · nofun
    | delete id s =>
      rw [createdIds, ih]
      · refine ⟨fun ⟨r', h⟩ => ⟨r', List.mem_cons_of_mem _ h⟩, fun ⟨r', h⟩ => ⟨r', ?_⟩⟩
        rcases List.mem_cons.1 h with e | h
        · cases e
        · exact h
      · nofun

theorem createdIds_sublist (ops : List ObjOp) : (createdIds ops).Sublist (ops.flatMap ObjOp.touched) := by
  induction ops with
  | nil => exact .slnil
  | cons op ops ih =>
    cases op with
    | create id r => exact ih.cons_cons id
    | update id n df => exact ih
    | delete id s => exact ih.cons id

theorem dropEntries_heads {B : Int → Prop} {d : Data} {ps : List Incr} (h : Owned B d ps) {l : List (Option Kind × Int × Int)}
    (hl : ∀ e ∈ l, DropOk d e) (hm : okMembers d (.dropTables l) = true) {w : Write} :
    w ∈ (dropEntries d l).heads ↔ ∃ sid x, (some Kind.table, sid, x) ∈ l ∧ w = .tidxErase x := by
  constructor
  · intro hw
    obtain ⟨⟨ko, sid, id⟩, he, hw⟩ := List.mem_flatMap.1 hw
    cases ko with
    | none => cases hw
    | some ko =>
      cases ko with
      | table => exact ⟨sid, id, he, List.mem_singleton.1 hw⟩
      | index =>
        exfalso
        dsimp only [dropEntry] at hw
        split at hw
        · rename_i c
          cases hx : get d.tidx sid with
          | none => rw [hx] at c; cases c
          | some lx =>
            rw [hx] at c
            obtain ⟨h1, _, h3⟩ := h.mem sid lx hx
            obtain ⟨r, hr, ho⟩ := (h3 id).1 c
            have := List.all_eq_true.1 hm _ he
            dsimp only at this
            rw [hr] at this
            simp at this
            omega
        · cases hw
  · rintro ⟨sid, x, he, rfl⟩
    exact List.mem_flatMap.2 ⟨_, he, List.mem_singleton.2 rfl⟩

theorem Part.ready {B : Int → Prop} {d : Data} {ps : List Incr} {q : Req} {inc : Incr} (h : Owned B d ps) (hp : Part d q inc)
    (hm : okMembers d q = true) (hb : ∀ sid n, q = .createTable sid n → B n.id)
    (hf : ∀ k i r, .create i r ∈ inc.ops k → get (d.objs k) i = none)
    (hn : ((inc.ops .index).flatMap ObjOp.touched).Nodup) : Ready B d inc := by
  have ids := hp.ids_noTidx
  cases hp with
  | off _ heads ids' hh _ _ =>
    exact { ids := ids, shape := Or.inl hh, fresh := hf, adds := fun t a b hw => absurd trivial (hh _ hw),
            puts := fun t l hw => absurd trivial (hh _ hw), creates := (by intro i r hc; cases hc),
            dels := (by intro i s hc; cases hc), erases := fun t hw => absurd trivial (hh _ hw),
            tdels := (by intro t s hc; cases hc), made := (by intro t r hc; cases hc) }
  | table sid n r h1 h2 =>
    refine { ids := ids, shape := Or.inl (by intro w hw; cases hw), fresh := hf, adds := (by intro t a b hw; cases hw),
             puts := (by intro t l hw; cases hw), creates := (by intro i r hc; cases hc),
             dels := (by intro i s hc; cases hc), erases := (by intro t hw; cases hw), tdels := ?_, made := ?_ }
    · intro t s hc; cases List.mem_singleton.1 hc
    · intro t r' hc
      have e := List.mem_singleton.1 hc
      cases e
      exact Or.inl (hb sid n rfl)
  | index _ id r h0 =>
    refine { ids := ids, shape := Or.inl (by intro w hw; cases hw), fresh := hf, adds := (by intro t a b hw; cases hw),
             puts := (by intro t l hw; cases hw), creates := ?_, dels := ?_, erases := (by intro t hw; cases hw),
             tdels := (by intro t s hc; cases hc), made := (by intro t r hc; cases hc) }
    · intro i r' hc hpos
      have e := List.mem_singleton.1 hc
      cases e
      omega
    · intro i s hc; cases List.mem_singleton.1 hc
  | tables sid l id r ops hl h1 h2 h3 ho =>
    refine { ids := ids, shape := Or.inr (Or.inl ⟨_, _, rfl⟩), fresh := hf, adds := ?_, puts := ?_, creates := ?_, dels := ?_, erases := ?_, tdels := ?_, made := ?_ }
    · intro t a b hw; cases List.mem_singleton.1 hw
    · intro t lt hw
      have e := List.mem_singleton.1 hw
      cases e
      refine ⟨?_, h2, (createdIds_sublist ops).nodup hn, ?_, r, List.mem_singleton.2 rfl⟩
      · cases hg : get d.tidx id with
        | none => rfl
        | some lx =>
          have := h.tab id lx hg
          rw [h1] at this; cases this
      · intro i hi
        obtain ⟨r', hc⟩ := mem_createdIds.1 hi
        obtain ⟨i', r'', e, e2, _⟩ := ho _ hc
        cases e
        exact ⟨r', hc, e2⟩
    · intro i r' hc hpos
      obtain ⟨i', r'', e, e2, e3⟩ := ho _ hc
      cases e
      rw [e2]
      exact ⟨Or.inl ⟨_, List.mem_singleton.2 rfl, mem_createdIds.2 ⟨r', hc⟩⟩, Or.inl ⟨r, List.mem_singleton.2 rfl, h3.trans e3.symm⟩⟩
    · intro i s hc
      obtain ⟨i', r'', e, _⟩ := ho _ hc
      cases e
    · intro t hw; cases List.mem_singleton.1 hw
    · intro t s hc; cases List.mem_singleton.1 hc
    · intro t r' hc
      have e := List.mem_singleton.1 hc
      cases e
      exact Or.inr ⟨_, List.mem_singleton.2 rfl⟩
  | indexes sid l ops ho =>
    refine { ids := ids, shape := Or.inl (by intro w hw; cases hw), fresh := hf, adds := (by intro t a b hw; cases hw),
             puts := (by intro t l hw; cases hw), creates := ?_, dels := ?_, erases := (by intro t hw; cases hw),
             tdels := (by intro t s hc; cases hc), made := (by intro t r hc; cases hc) }
    · intro i r' hc hpos
      obtain ⟨i', r'', e, e2, _⟩ := ho _ hc
      cases e
      omega
    · intro i s hc
      obtain ⟨i', r'', e, _⟩ := ho _ hc
      cases e
  | drops l hl =>
    have hh := @dropEntries_heads B d ps h l hl hm
    have nodel : ∀ k op, op ∈ (dropEntries d l).ops k → ∃ j s, op = .delete j s := by
      intro k op hc
      rw [dropEntries_ops] at hc
      obtain ⟨x, _, hc⟩ := List.mem_flatMap.1 hc
      exact dropEntry_ops hc
    refine { ids := ids, shape := Or.inr (Or.inr (Or.inr ?_)), fresh := hf, adds := ?_, puts := ?_, creates := ?_, dels := ?_, erases := ?_, tdels := ?_, made := ?_ }
    · intro w hw
      obtain ⟨_, x, _, e⟩ := hh.1 hw
      exact ⟨x, e⟩
    · intro t a b hw; obtain ⟨_, x, _, e⟩ := hh.1 hw; cases e
    · intro t l hw; obtain ⟨_, x, _, e⟩ := hh.1 hw; cases e
    · intro i r hc; obtain ⟨j, s, e⟩ := nodel .index _ hc; cases e
    · intro i s hc
      rcases (dropEntries_named (k := .index)).1 ⟨s, hc⟩ with ⟨sid, h1⟩ | ⟨_, sid, x, lx, h1, h2, h3⟩
      · obtain ⟨_, _, r, hr, _⟩ := hl _ h1
        refine ⟨r, hr, fun hpos => ?_⟩
        have := List.all_eq_true.1 hm _ h1
        dsimp only at this
        rw [hr] at this
        simp at this
        omega
      · obtain ⟨r, hr, ho⟩ := ((h.mem x lx h2).2.2 i).1 h3
        exact ⟨r, hr, fun _ => Or.inr (hh.2 ⟨sid, x, h1, by rw [ho]⟩)⟩
    · intro t hw
      obtain ⟨sid, x, h1, e⟩ := hh.1 hw
      cases e
      obtain ⟨_, hpos, _, _, lx, hx, _⟩ := hl _ h1
      refine ⟨hpos, ?_, ?_⟩
      · intro i r hr ho
        exact (dropEntries_named (k := .index)).2 (Or.inr ⟨rfl, sid, t, lx, h1, hx, ((h.mem t lx hx).2.2 i).2 ⟨r, hr, ho⟩⟩)
      · exact (dropEntries_named (k := .table)).2 (Or.inl ⟨sid, h1⟩)
    · intro t s hc
      rcases (dropEntries_named (k := .table)).1 ⟨s, hc⟩ with ⟨sid, h1⟩ | ⟨e, _⟩
      · exact hh.2 ⟨sid, t, h1, rfl⟩
      · cases e
    · intro t r hc; obtain ⟨j, s, e⟩ := nodel .table _ hc; cases e
  | upTable _ id n df =>
    refine { ids := ids, shape := Or.inl (by intro w hw; cases hw), fresh := hf, adds := (by intro t a b hw; cases hw),
             puts := (by intro t l hw; cases hw), creates := (by intro i r hc; cases hc),
             dels := (by intro i s hc; cases hc), erases := (by intro t hw; cases hw), tdels := ?_, made := ?_ }
    · intro t s hc; cases List.mem_singleton.1 hc
    · intro t s hc; cases List.mem_singleton.1 hc
  | upIndex _ id n df =>
    refine { ids := ids, shape := Or.inl (by intro w hw; cases hw), fresh := hf, adds := (by intro t a b hw; cases hw),
             puts := (by intro t l hw; cases hw), creates := ?_, dels := ?_, erases := (by intro t hw; cases hw),
             tdels := (by intro t s hc; cases hc), made := (by intro t r hc; cases hc) }
    · intro i r hc; cases List.mem_singleton.1 hc
    · intro i s hc; cases List.mem_singleton.1 hc
  | add tb n r ri ht hx h0 hs =>
    refine { ids := ids, shape := Or.inr (Or.inr (Or.inl ⟨_, _, _, rfl⟩)), fresh := hf, adds := ?_, puts := ?_, creates := ?_, dels := ?_, erases := ?_, tdels := (by intro t s hc; cases hc), made := (by intro t r hc; cases hc) }
    · intro t a b hw
      have e := List.mem_singleton.1 hw
      cases e
      refine ⟨hx, by simp, ?_, (by intro i hi; cases hi)⟩
      intro i hi
      rw [List.mem_singleton.1 hi]
      exact ⟨ri, List.mem_singleton.2 rfl, h0⟩
    · intro t l hw; cases List.mem_singleton.1 hw
    · intro i r' hc hpos
      have e := List.mem_singleton.1 hc
      cases e
      rw [h0]
      exact ⟨Or.inr ⟨_, _, List.mem_singleton.2 rfl, List.mem_singleton.2 rfl⟩, Or.inr ⟨r, ht, hs.symm⟩⟩
    · intro i s hc; cases List.mem_singleton.1 hc
    · intro t hw; cases List.mem_singleton.1 hw
  | del tb id r l ht hx hmem =>
    refine { ids := ids, shape := Or.inr (Or.inr (Or.inl ⟨_, _, _, rfl⟩)), fresh := hf, adds := ?_, puts := ?_, creates := ?_, dels := ?_, erases := ?_, tdels := (by intro t s hc; cases hc), made := (by intro t r hc; cases hc) }
    · intro t a b hw
      have e := List.mem_singleton.1 hw
      cases e
      refine ⟨by rw [hx]; rfl, List.nodup_nil, (by intro i hi; cases hi), ?_⟩
      intro i hi
      rw [List.mem_singleton.1 hi]
      exact ⟨_, List.mem_singleton.2 rfl⟩
    · intro t l hw; cases List.mem_singleton.1 hw
    · intro i r' hc; cases List.mem_singleton.1 hc
    · intro i s hc
      have e := List.mem_singleton.1 hc
      cases e
      obtain ⟨r', hr, ho⟩ := ((h.mem tb l hx).2.2 id).1 hmem
      exact ⟨r', hr, fun _ => Or.inl ⟨_, _, by rw [ho]; exact List.mem_singleton.2 rfl, List.mem_singleton.2 rfl⟩⟩
    · intro t hw; cases List.mem_singleton.1 hw
  | free sid id r hg h0 =>
    refine { ids := ids, shape := Or.inl (by intro w hw; cases hw), fresh := hf, adds := (by intro t a b hw; cases hw),
             puts := (by intro t l hw; cases hw), creates := ?_, dels := ?_, erases := (by intro t hw; cases hw),
             tdels := (by intro t s hc; cases hc), made := (by intro t r hc; cases hc) }
    · intro i r hc; cases List.mem_singleton.1 hc
    · intro i s hc
      have e := List.mem_singleton.1 hc
      cases e
      exact ⟨r, hg, fun hpos => absurd hpos (by omega)⟩

theorem mem_listedIn {t : Int} {hs : List Write} : t ∈ hs.flatMap Write.listed ↔ ∃ a b, .tidxAddDel t a b ∈ hs := by
  constructor
  · intro h
    obtain ⟨w, hw, h⟩ := List.mem_flatMap.1 h
    cases w with
    | tidxAddDel t' a b => rw [List.mem_singleton.1 h]; exact ⟨a, b, hw⟩
    | _ => cases h
  · rintro ⟨a, b, h⟩
    exact List.mem_flatMap.2 ⟨_, h, List.mem_singleton.2 rfl⟩

theorem mem_unlistedIn {t : Int} {hs : List Write} : t ∈ hs.flatMap Write.unlisted ↔ .tidxErase t ∈ hs := by
  constructor
  · intro h
    obtain ⟨w, hw, h⟩ := List.mem_flatMap.1 h
    cases w with
    | tidxErase t' => rw [List.mem_singleton.1 h]; exact hw
    | _ => cases h
  · intro h
    exact List.mem_flatMap.2 ⟨_, h, List.mem_singleton.2 rfl⟩

theorem okLists_apart {inc : Incr} {ps : List Incr} (h : okLists inc ps = true) : ∀ p ∈ ps, Apart inc p := by
  unfold okLists at h
  rw [Bool.and_eq_true, List.all_eq_true, List.all_eq_true] at h
  intro p hp
  constructor
  · intro t x y h1 h2
    have := h.1 t (mem_unlistedIn.2 h1)
    rw [decide_eq_true_eq] at this
    exact this (List.mem_flatMap.2 ⟨p, hp, mem_listedIn.2 ⟨x, y, h2⟩⟩)
  · intro t x y h1 h2
    have := h.2 t (mem_listedIn.2 ⟨x, y, h2⟩)
    rw [decide_eq_true_eq] at this
    exact this (List.mem_flatMap.2 ⟨p, hp, mem_unlistedIn.2 h1⟩)

/-- The invariant in every state of a run. -/
theorem Owned.run {B : Int → Prop} {es : List Ev} (hok : okRun init es = true) (hx : StepsOk okIndexes init es = true)
    (hb : ∀ sid n, .begin (.createTable sid n) ∈ es → B n.id) :
    Owned B (run init es).1.data (pending (run init es).1) := by
  refine pend_ind (P := Owned B) (f := okIndexes) (R := fun q => ∀ sid n, q = .createTable sid n → B n.id)
    (fun d ps ps' p h => h.perm p) (fun d l ps h => h.drop) ?_ ?_ Inv.init hok hx ?_ ?_
  · intro s q n t p hi hok hx hq hl hp h
    dsimp only [okEv] at hok
    rw [hl] at hok
    dsimp only at hok
    rw [hp] at hok
    simp only [Bool.and_eq_true] at hok
    dsimp only [okIndexes] at hx
    rw [hl] at hx
    dsimp only at hx
    rw [hp] at hx
    simp only [Bool.and_eq_true] at hx
    have hids : ∀ k, ((p.incr :: pending s).flatMap (fun p => (p.ops k).flatMap ObjOp.touched)).Nodup := by
      intro k
      rw [List.flatMap_cons]
      have : okIds k p.incr (pending s) = true := by
        cases k
        · exact hok.2.1.1
        · exact hok.2.1.2
      unfold okIds at this
      rw [Bool.and_eq_true] at this
      exact nodupB_iff.1 this.1
    refine { mem := h.mem, home := h.home, tab := h.tab, listed := h.listed, ready := ?_, once := hids, apart := ?_ }
    · intro inc hm
      rcases List.mem_cons.1 hm with e | hm
      · subst e
        refine (prepare_part hp).ready h hx.1 hq ?_ ?_
        · intro k i r hc
          obtain ⟨a, b, h4⟩ := (prepare_shape hp).step_of (k, .create i r) (mem_all.2 hc)
          exact h4.create_none
        · have := hids .index
          rw [List.flatMap_cons] at this
          exact (List.nodup_append.1 this).1
      · exact h.ready inc hm
    · exact List.pairwise_cons.2 ⟨okLists_apart hx.2, h.apart⟩
  · intro d d' inc ps ⟨d0, t0, t1, p, hs, e⟩ h ha
    subst e
    exact h.apply ha hs.offObj.1 hs.offObj.2
  · intro q hq sid n e
    subst e
    exact hb sid n hq
  · exact { mem := (by intro t l h; cases h), home := (by intro i r h; cases h), tab := (by intro t l h; cases h),
            listed := (by intro t _ h; cases h), ready := (by intro inc h; cases h), once := fun _ => List.nodup_nil,
            apart := .nil }

end Verif.Meta
