import Verif.CoorKv.Watch
import Verif.CoorKv.RangeLemmas

/-!
# Watches: what the apply thread does to the map, and the events it makes
-/

namespace Verif.CoorKv.Watch
attribute [-instance] Verif.Txn.instDecidableLt_verif Verif.Txn.KeyOrder.toLT
open Verif.Codec (Bytes)
open Verif.Txn (CF KeyOrder)

variable {N : Prop} {U : Rev → Bytes → Prop} {s : Node} {S : Spec}

/-- The event tells the change. -/
structure Says (e : Event) (c : Change) : Prop where
  key : e.key = c.key
  put : e.put = c.put
  mod : e.kv.mod = c.rev
  shows : Shows c e.kv
  prev : e.prev = prevShown c

theorem prevOf_spec (h : Good N U s) (hpos : ∀ k x, abs s k = some x → 0 < x.create) (k : Bytes) :
    prevOf s k = match abs s k with
      | none => Kv.unset
      | some x => { answer false (k, x) with version := x.version + 1 } := by
  unfold prevOf
  cases hi : s.index.get k with
  | none => simp [abs, hi]
  | some i =>
    obtain ⟨g, hg, hl⟩ := (h.keys k i hi).last
    have ha := abs_eq hi hg hl
    simp only [hg]
    cases hl with
    | dead hc => rw [ha]; simp [hc]
    | live c x hc hr hx hk hxc hxm hxv =>
      rw [hc] at ha
      simp only [Option.isSome_some, if_true] at ha
      have hp := hpos k _ ha
      rw [ha]
      simp only [hc]
      have e1 : s.record i.mod = x := by simp [Node.record, hx]
      rw [e1] at hp ⊢
      have : 0 < c.main := by rw [← hxc]; exact hp
      rw [if_pos this]
      simp [answer, Rec.item, hxc, hxm, hxv]

theorem set_map (S : Spec) (k : Bytes) (x : Option Item) : (S.set k x).map k = x := by simp [Spec.set]

/-- One operation: the map follows, and the event tells the change. -/
theorem opWrite_spec {m sub : Int} {o : Op} (hd : o.draws = true) (h : Good N (Below m sub) s) (hs : 1 ≤ sub) {rv : Int}
    (hS : specOf s rv = S) (hpos : ∀ k x, S.map k = some x → 0 < x.create) :
    (Good N (Below m (sub + 1)) (opWrite s ⟨m, sub⟩ o).1 ∧ specOf (opWrite s ⟨m, sub⟩ o).1 rv = S.op m o ∧
      Keeps s (opWrite s ⟨m, sub⟩ o).1) ∧
    (∀ e, (opWrite s ⟨m, sub⟩ o).2 = some e → ∃ c, changeOf m S o = [c] ∧ Says e c) ∧
    ((opWrite s ⟨m, sub⟩ o).2 = none → ∀ c ∈ changeOf m S o, c.put = false ∧ c.before = none) := by
  have hpos' : ∀ k x, abs s k = some x → 0 < x.create := by
    intro k x hx; exact hpos k x (by rw [← hS]; exact hx)
  cases o with
  | compact => cases hd
  | put k il l iv v =>
    obtain ⟨a, b, c⟩ := put_fresh (k := k) (il := il) (l := l) (iv := iv) (v := v) h hs rv
    rw [hS] at b
    refine ⟨⟨a, b, c⟩, ?_, ?_⟩
    · intro e he
      simp only [opWrite] at he
      -- accepted
      have hacc : ¬ (0 < (if il then ((S.map k).map (·.lease)).getD 0 else l) ∧
          S.leases (if il then ((S.map k).map (·.lease)).getD 0 else l) = none) := by
        intro hb
        obtain ⟨hl, _⟩ := put_last (k := k) h
        rw [← hS] at hb
        simp only [specOf] at hb
        simp only [putApply, hl, if_pos hb] at he
        cases he
      have hch : changeOf m S (.put k il l iv v) = [⟨k, true, m, S.map k, (S.op m (.put k il l iv v)).map k⟩] := by
        simp only [changeOf]; exact if_neg hacc
      rw [hch]
      refine ⟨_, rfl, ?_⟩
      have hidx : ((putApply s k ⟨m, sub⟩ il l iv v).1.getLastD s).index.get k =
          some ⟨⟨m, sub⟩, oldGens (s.index.get k) ++ [putGen (s.index.get k) ⟨m, sub⟩]⟩ := by
        obtain ⟨hl, _⟩ := put_last (k := k) h
        rw [← hS] at hacc
        simp only [specOf] at hacc
        simp only [putApply, hl, if_neg hacc, List.getLastD_cons, List.getLastD_nil]
        simp [Node.setIndex, CF.get_put]
      split at he
      · cases he
        obtain ⟨g, hgl, hlo⟩ := (a.keys k _ hidx).last
        obtain ⟨cc, hcc, _⟩ := put_gen (k := k) (op := ⟨m, sub⟩) h
        have hg' : g = putGen (s.index.get k) ⟨m, sub⟩ := by
          simp at hgl; exact hgl.symm
        have hlive := (hlo.live_iff hgl).2 (by rw [hg', hcc]; rfl)
        have hans := answer_eq (ko := false) (e := (k, _)) a hidx hlive
        have habs : abs ((putApply s k ⟨m, sub⟩ il l iv v).1.getLastD s) k =
            some (((putApply s k ⟨m, sub⟩ il l iv v).1.getLastD s).record ⟨m, sub⟩).item := by
          unfold abs; rw [hidx]; simp only [hlive, if_true]
        have hmap : (S.op m (.put k il l iv v)).map k =
            some (((putApply s k ⟨m, sub⟩ il l iv v).1.getLastD s).record ⟨m, sub⟩).item := by
          rw [← b]; exact habs
        simp only at hans
        have hmod : (((putApply s k ⟨m, sub⟩ il l iv v).1.getLastD s).record ⟨m, sub⟩).mod.main = m := by
          cases hlo with
          | dead hc => rw [hg', hcc] at hc; cases hc
          | live c' x hc hr hx hk hxc hxm => simp only at hx hxm; unfold Node.record; rw [hx, Option.getD_some, hxm]
        refine ⟨rfl, rfl, ?_, ⟨_, hmap, hans⟩, ?_⟩
        · simp only [Rec.toKv]; exact hmod
        · have := prevOf_spec h hpos' k
          rw [← hS]
          exact this
      · cases he
    · intro hn c hc
      exfalso
      by_cases hacc : 0 < (if il then ((S.map k).map (·.lease)).getD 0 else l) ∧
          S.leases (if il then ((S.map k).map (·.lease)).getD 0 else l) = none
      · have : changeOf m S (.put k il l iv v) = [] := by simp only [changeOf]; exact if_pos hacc
        rw [this] at hc; cases hc
      · simp only [opWrite] at hn
        obtain ⟨hl, _⟩ := put_last (k := k) h
        rw [← hS] at hacc
        simp only [specOf] at hacc
        simp only [putApply, hl, if_neg hacc] at hn
        cases hn
  | delete k =>
    obtain ⟨a, b, c⟩ := delete_fresh (k := k) h hs rv
    rw [hS] at b
    have hfst : (opWrite s ⟨m, sub⟩ (.delete k)).1 = (deleteApply s k ⟨m, sub⟩).getLastD s := by
      simp only [opWrite]
      cases hi : s.index.get k with
      | none => simp [deleteApply, hi]
      | some i => rfl
    rw [hfst]
    refine ⟨⟨a, b, c⟩, ?_, ?_⟩
    · intro e he
      refine ⟨_, rfl, ?_⟩
      simp only [opWrite] at he
      split at he
      · cases he
      · cases he
        refine ⟨rfl, rfl, rfl, ⟨rfl, rfl, rfl, rfl⟩, ?_⟩
        have := prevOf_spec h hpos' k
        rw [← hS]
        exact this
    · intro hn c hc
      simp only [changeOf, List.mem_singleton] at hc
      subst hc
      refine ⟨rfl, ?_⟩
      simp only [opWrite] at hn
      split at hn
      · next hi => rw [← hS]; simp [specOf, abs, hi]
      · cases hn

theorem single_good (h : Good N U s) (k : Bytes) (mk : Nat) :
    (kvRange mk s k [] 1 false false).kvs.head? = (abs s k).map fun x => answer false (k, x) := by
  rw [kvRange_eq]
  simp only
  have hlim : (if (1 : Int) = 0 then (2 : Int) ^ 63 - 1 else 1) = 1 := if_neg (by omega)
  rw [hlim]
  rcases rangeLoop_spec (limit := 1) (ko := false) h (looks mk s k []) looks_get 0 with e | e
  · rw [e]
    simp only
    have hv : visible s (looks mk s k []) = ((CoorKv.abs s k).map fun x => (k, x)).toList := by
      unfold looks CoorKv.abs visible
      simp only [if_true]
      cases s.index.get k with
      | none => rfl
      | some i => simp only [List.filterMap_cons, List.filterMap_nil]; cases i.live <;> rfl
    rw [hv]
    cases CoorKv.abs s k with
    | none => simp
    | some x => rfl
  · simp at e

/-! ### The apply thread -/

/-- The sub revision of the next operation. -/
def Job.upto (j : Job) : Int :=
  match j.stage with
  | .ready => j.sub
  | .drawn => j.sub
  | _ => j.sub + 1

/-- An entry half applied. -/
structure Mid (s : Node) (S : Spec) (j : Job) : Prop where
  good : Good True (Below (mainOf s j.main) j.upto) s
  sub : 1 ≤ j.sub
  one : j.main = none → j.sub = 1 ∧ j.stage = .ready
  mem : s.memRev = some (match j.main with | some _ => S.rev + 1 | none => S.rev)
  main : ∀ m, j.main = some m → m = S.rev + 1
  disk : initId 10000 s.diskRev = some S.rev
  pos : 10000 ≤ S.rev
  spec : specOf s S.rev = S
  ops : j.stage ≠ .ready → ∃ o ops, j.ops = o :: ops ∧ (j.stage = .drawn → o.draws = true)

/-- The replica and the specified map, between and inside entries. -/
def Base (s : Node) (S : Spec) : Option Job → Prop
  | none => Ok True s S
  | some j => Mid s S j

theorem Base.good {j : Option Job} (h : Base s S j) : ∃ U, Good True U s := by
  cases j with
  | none => exact ⟨_, Ok.good h⟩
  | some j => exact ⟨_, Mid.good h⟩

theorem Base.spec {j : Option Job} (h : Base s S j) : specOf s S.rev = S := by
  cases j with
  | none => exact Ok.spec h
  | some j => exact Mid.spec h

theorem Base.abs {j : Option Job} (h : Base s S j) (k : Bytes) : abs s k = S.map k := by
  have := congrArg (fun T => Spec.map T k) h.spec
  exact this

theorem Base.pos {j : Option Job} (h : Base s S j) : 10000 ≤ S.rev := by
  cases j with
  | none => exact Ok.pos h
  | some j => exact Mid.pos h

theorem Base.mem {j : Option Job} (h : Base s S j) : ∃ m, s.memRev = some m ∧ S.rev ≤ m := by
  cases j with
  | none => exact ⟨_, Ok.mem h, Int.le_refl _⟩
  | some j =>
    refine ⟨_, Mid.mem h, ?_⟩
    cases j.main <;> simp <;> omega

theorem Base.begin (h : Base s S none) (e : Entry) :
    Base (e.inc.leases.foldl leaseApply s) (e.inc.leases.foldl Spec.lease S)
      (some ⟨none, 1, e.inc.ops, e.inc.leaseIds, e.term, e.index, .ready⟩) ∧
    (e.inc.leases.foldl leaseApply s).memRev = s.memRev ∧ (e.inc.leases.foldl Spec.lease S).map = S.map := by
  have h' : Ok True s S := h
  obtain ⟨a, b⟩ := leases_spec e.inc.leases s S.rev
  have hr := spec_leases_rev e.inc.leases S
  have hm : (e.inc.leases.foldl Spec.lease S).map = S.map := by
    generalize e.inc.leases = os
    clear a b hr
    induction os generalizing S with
    | nil => rfl
    | cons o os ih =>
      rw [List.foldl_cons]
      have : ∀ (os : List LeaseOp) (S : Spec), (os.foldl Spec.lease S).map = S.map := by
        intro os
        induction os with
        | nil => exact fun _ => rfl
        | cons o os ih => intro S; rw [List.foldl_cons, ih]; cases o <;> rfl
      rw [this]; cases o <;> rfl
  refine ⟨?_, b.memRev, hm⟩
  refine { good := ?_, sub := Int.le_refl _, one := fun _ => ⟨rfl, rfl⟩, mem := ?_, main := ?_, disk := ?_, pos := ?_, spec := ?_, ops := ?_ }
  · have : mainOf (e.inc.leases.foldl leaseApply s) none = S.rev + 1 := by simp [mainOf, b.memRev, h'.mem, nextId]
    simp only [this, Job.upto]
    exact h'.good.congr b.index b.revs
  · simp only; rw [b.memRev, h'.mem, hr]
  · intro m hm; cases hm
  · rw [b.diskRev, hr]; exact h'.disk
  · rw [hr]; exact h'.pos
  · rw [hr, a, h'.spec]
  · intro hne; exact absurd rfl hne

theorem Base.draw {main : Option Int} {sub : Int} {o : Op} {ops : List Op} {ids : List Int} {term index : Int}
    (h : Base s S (some ⟨main, sub, o :: ops, ids, term, index, .ready⟩)) (hd : o.draws = true) :
    Base (drawRev s main sub).1 S (some ⟨some (drawRev s main sub).2.main, sub, o :: ops, ids, term, index, .drawn⟩) ∧
      (drawRev s main sub).1.memRev = some (S.rev + 1) := by
  have h' : Mid s S ⟨main, sub, o :: ops, ids, term, index, .ready⟩ := h
  have hmm : ∀ m, main = some m → s.memRev = some m := by
    intro m hm
    have := h'.mem
    rw [this, h'.main m hm]
    subst hm; rfl
  have hmain : mainOf s main = S.rev + 1 := by
    cases main with
    | none => have := h'.mem; simp only at this; simp [mainOf, this, nextId]
    | some m => simp [mainOf]; exact h'.main m rfl
  obtain ⟨a, b, c, d, e⟩ := drawRev_spec s main sub hmm
  rw [hmain] at a b
  have hg := h'.good
  simp only [hmain, Job.upto] at hg
  refine ⟨?_, b⟩
  refine { good := ?_, sub := h'.sub, one := ?_, mem := ?_, main := ?_, disk := ?_, pos := h'.pos, spec := ?_, ops := ?_ }
  · simp only [a, mainOf, Option.getD_some, Job.upto]
    exact hg.congr c d
  · intro hh; cases hh
  · simp only; exact b
  · intro m hm; simp only [a, Option.some.injEq] at hm; exact hm.symm
  · rw [e.diskRev]; exact h'.disk
  · rw [specOf_congr c d e.leases]; exact h'.spec
  · intro _; exact ⟨o, ops, rfl, fun _ => hd⟩

theorem op_rev (S : Spec) (m : Int) (o : Op) : (S.op m o).rev = S.rev := spec_ops_rev [o] m S

theorem Base.write {m sub : Int} {o : Op} {ops : List Op} {ids : List Int} {term index : Int}
    (h : Base s S (some ⟨some m, sub, o :: ops, ids, term, index, .drawn⟩)) (hpos : ∀ k x, S.map k = some x → 0 < x.create) :
    Base (opWrite s ⟨m, sub⟩ o).1 (S.op m o)
      (some ⟨some m, sub, o :: ops, ids, term, index, .written (opWrite s ⟨m, sub⟩ o).2⟩) ∧
    (opWrite s ⟨m, sub⟩ o).1.memRev = s.memRev ∧ s.memRev = some m ∧ m = S.rev + 1 ∧
    (∀ e, (opWrite s ⟨m, sub⟩ o).2 = some e → ∃ c, changeOf m S o = [c] ∧ Says e c) ∧
    ((opWrite s ⟨m, sub⟩ o).2 = none → ∀ c ∈ changeOf m S o, c.put = false ∧ c.before = none) := by
  have h' : Mid s S ⟨some m, sub, o :: ops, ids, term, index, .drawn⟩ := h
  have hg := h'.good
  simp only [mainOf, Option.getD_some, Job.upto] at hg
  obtain ⟨o', ops', ho, hd⟩ := h'.ops (fun e => by cases e)
  cases ho
  have hm := h'.main m rfl
  obtain ⟨⟨a, b, c⟩, d, e⟩ := opWrite_spec (o := o) (hd rfl) hg h'.sub h'.spec hpos
  refine ⟨?_, c.memRev, ?_, hm, d, e⟩
  · refine { good := ?_, sub := h'.sub, one := ?_, mem := ?_, main := ?_, disk := ?_, pos := ?_, spec := ?_, ops := ?_ }
    · simp only [mainOf, Option.getD_some, Job.upto]; exact a
    · intro hh; cases hh
    · simp only [op_rev]; rw [c.memRev]; have := h'.mem; simp only at this; exact this
    · intro m' hm'; cases hm'; rw [op_rev]; exact hm
    · rw [c.diskRev, op_rev]; exact h'.disk
    · rw [op_rev]; exact h'.pos
    · rw [op_rev]; exact b
    · intro _; exact ⟨o, ops, rfl, fun e => by cases e⟩
  · have := h'.mem; simp only at this; rw [this, hm]

theorem Base.compact {main : Option Int} {sub : Int} {k : Bytes} {v : Int} {ops : List Op} {ids : List Int} {term index : Int}
    (h : Base s S (some ⟨main, sub, .compact k v :: ops, ids, term, index, .ready⟩)) :
    Base ((compactApply s k v).getLastD s) S (some ⟨main, sub, ops, ids, term, index, .ready⟩) ∧
      ((compactApply s k v).getLastD s).memRev = s.memRev := by
  have h' : Mid s S ⟨main, sub, .compact k v :: ops, ids, term, index, .ready⟩ := h
  obtain ⟨a, b, c⟩ := compact_last (k := k) (rev := v) trivial h'.good S.rev
  refine ⟨?_, c.memRev⟩
  refine { good := ?_, sub := h'.sub, one := ?_, mem := ?_, main := h'.main, disk := ?_, pos := h'.pos, spec := ?_, ops := ?_ }
  · have : mainOf ((compactApply s k v).getLastD s) main = mainOf s main := by simp only [mainOf, c.memRev]
    simp only [this]; exact a
  · intro hh; exact ⟨(h'.one hh).1, rfl⟩
  · rw [c.memRev]; exact h'.mem
  · rw [c.diskRev]; exact h'.disk
  · rw [b]; exact h'.spec
  · intro hne; exact absurd rfl hne

theorem Base.next {j : Job} (h : Base s S (some j)) (hst : (∃ e, j.stage = .written e) ∨ ∃ e, j.stage = .checked e) :
    Base s S (some j.next) := by
  have h' : Mid s S j := h
  have hup : j.upto = j.sub + 1 := by
    unfold Job.upto
    rcases hst with ⟨e, he⟩ | ⟨e, he⟩ <;> rw [he]
  have hmain : j.main ≠ none := by
    intro hn
    have := (h'.one hn).2
    rcases hst with ⟨e, he⟩ | ⟨e, he⟩ <;> rw [he] at this <;> cases this
  have hg := h'.good
  rw [hup] at hg
  refine { good := ?_, sub := ?_, one := ?_, mem := h'.mem, main := h'.main, disk := h'.disk, pos := h'.pos, spec := h'.spec, ops := ?_ }
  · exact hg
  · have := h'.sub; simp only [Job.next]; omega
  · intro hh; exact absurd hh hmain
  · intro hne; exact absurd rfl hne

theorem Base.checked {j : Job} {e : Event} (h : Base s S (some j)) (hst : j.stage = .written (some e)) :
    Base s S (some { j with stage := .checked e }) := by
  have h' : Mid s S j := h
  have hup : j.upto = j.sub + 1 := by unfold Job.upto; rw [hst]
  have hg := h'.good
  rw [hup] at hg
  refine { good := hg, sub := h'.sub, one := ?_, mem := h'.mem, main := h'.main, disk := h'.disk, pos := h'.pos, spec := h'.spec, ops := ?_ }
  · intro hh
    have := (h'.one hh).2
    rw [hst] at this; cases this
  · intro _
    obtain ⟨o, ops, ho, _⟩ := h'.ops (by rw [hst]; exact fun e => by cases e)
    exact ⟨o, ops, ho, fun e => by cases e⟩

theorem Base.finish {main : Option Int} {sub : Int} {ids : List Int} {term index : Int}
    (h : Base s S (some ⟨main, sub, [], ids, term, index, .ready⟩)) :
    Base (Verif.CoorKv.finish s main ids term index) { S with rev := if main.isSome then S.rev + 1 else S.rev } none ∧
      (Verif.CoorKv.finish s main ids term index).memRev = s.memRev := by
  have h' : Mid s S ⟨main, sub, [], ids, term, index, .ready⟩ := h
  have hmem := h'.mem
  have hg := h'.good
  have hm : (Verif.CoorKv.finish s main ids term index).memRev = s.memRev := by
    simp only [Verif.CoorKv.finish]
    cases main with
    | none => rfl
    | some m => simp only at hmem; simp [hmem, raiseId, h'.main m rfl]
  refine ⟨?_, hm⟩
  refine ⟨?_, ?_, ?_, ?_, ?_⟩
  · cases main with
    | none =>
      have e : mainOf s none = S.rev + 1 := by simp only at hmem; simp [mainOf, hmem, nextId]
      simp only [e, Job.upto] at hg
      simp only [Option.isSome_none, Bool.false_eq_true, if_false]
      have h1 := (h'.one rfl).1
      simp only at h1
      rw [h1] at hg
      exact hg.congr rfl rfl
    | some m =>
      have e := h'.main m rfl
      simp only [Option.isSome_some, if_true]
      refine (hg.mono ?_).congr rfl rfl
      rintro r k ⟨a, b⟩
      simp only [mainOf, Option.getD_some] at b
      exact ⟨a, by omega⟩
  · rw [hm, hmem]
    cases main <;> simp
  · simp only [Verif.CoorKv.finish]
    cases main with
    | none => exact h'.disk
    | some m =>
      have e := h'.main m rfl
      have := h'.pos
      simp only [Option.isSome_some, if_true, initId]
      rw [if_neg (by omega), e]
  · have := h'.pos
    cases main <;> simp <;> omega
  · have h1 : specOf (Verif.CoorKv.finish s main ids term index) S.rev = specOf s S.rev := specOf_congr rfl rfl rfl _
    rw [h'.spec] at h1
    refine Spec.ext' ?_ ?_ rfl
    · have := congrArg Spec.map h1; exact this
    · have := congrArg Spec.leases h1; exact this

end Verif.CoorKv.Watch
