import Verif.CoorKv.Lemmas

/-!
# Range reads of the coordinator's key-value store: helper lemmas
-/

namespace Verif.CoorKv
attribute [-instance] Verif.Txn.instDecidableLt_verif Verif.Txn.KeyOrder.toLT
open Verif.Codec (Bytes)
open Verif.Txn (CF KeyOrder Asc)

variable {N : Prop} {U : Rev → Bytes → Prop} {s : Node}

theorem takeWhile_lt {l : List (Bytes × Index)} (h : Asc l) (b : Bytes) (e : Bytes × Index) :
    e ∈ l.takeWhile (fun e => decide (e.1 < b)) ↔ e ∈ l ∧ e.1 < b := by
  induction l with
  | nil => simp
  | cons x l ih =>
    have hx := List.pairwise_cons.1 h
    rw [List.takeWhile_cons]
    by_cases hb : x.1 < b
    · simp only [hb, decide_true, if_true, List.mem_cons, ih hx.2]
      constructor
      · rintro (rfl | ⟨h1, h2⟩)
        · exact ⟨.inl rfl, hb⟩
        · exact ⟨.inr h1, h2⟩
      · rintro ⟨rfl | h1, h2⟩
        · exact .inl rfl
        · exact .inr ⟨h1, h2⟩
    · simp only [hb, decide_false, Bool.false_eq_true, if_false, List.not_mem_nil, List.mem_cons, false_iff]
      rintro ⟨rfl | h1, h2⟩
      · exact hb h2
      · exact hb (KeyOrder.trans (hx.1 _ h1) h2)

/-- The visible part of a list of indexes. -/
def visible (s : Node) (es : List (Bytes × Index)) : List (Bytes × Item) :=
  es.filterMap fun e => if e.2.live then some (e.1, (s.record e.2.mod).item) else none

theorem answer_eq {ko : Bool} {e : Bytes × Index} (h : Good N U s) (he : s.index.get e.1 = some e.2)
    (hl : e.2.live = true) : (s.record e.2.mod).toKv ko = answer ko (e.1, (s.record e.2.mod).item) := by
  obtain ⟨g, hg, hlo⟩ := (h.keys _ _ he).last
  have hsome := (hlo.live_iff hg).1 hl
  cases hlo with
  | dead hc => rw [hc] at hsome; cases hsome
  | live c x hc hr hx hk => simp [Node.record, hx, Rec.toKv, answer, Rec.item, hk]

theorem rangeLoop_spec {limit : Int} {ko : Bool} (h : Good N U s) (es : List (Bytes × Index))
    (hes : ∀ e ∈ es, s.index.get e.1 = some e.2) (n : Nat) :
    rangeLoop s limit ko false n es =
      (((visible s es).take (limit - n).toNat).map (answer ko), decide (limit < (n + (visible s es).length : Nat))) ∨
    (limit < n) := by
  by_cases hlim : limit < n
  · exact .inr hlim
  refine .inl ?_
  induction es generalizing n with
  | nil =>
    have : visible s [] = [] := rfl
    rw [this, rangeLoop, List.take_nil, List.map_nil, List.length_nil]
    have : decide (limit < (n + 0 : Nat)) = false := by rw [decide_eq_false_iff_not]; omega
    rw [this]
  | cons e es ih =>
    have hes' : ∀ e ∈ es, s.index.get e.1 = some e.2 := fun x hx => hes x (List.mem_cons_of_mem _ hx)
    rw [rangeLoop]
    cases hl : e.2.live with
    | false =>
      simp only [Bool.false_eq_true, if_false]
      have hv : visible s (e :: es) = visible s es := by simp [visible, hl]
      rw [ih hes' n hlim, hv]
    | true =>
      have hv : visible s (e :: es) = (e.1, (s.record e.2.mod).item) :: visible s es := by
        simp [visible, hl]
      rw [hv]
      simp only [if_true]
      by_cases hc : limit < (n + 1 : Nat)
      · rw [if_pos hc]
        have : (limit - n).toNat = 0 := by omega
        rw [this]
        simp only [List.take_zero, List.map_nil, List.length_cons, Prod.mk.injEq, true_and]
        symm
        rw [decide_eq_true_eq]
        omega
      · rw [if_neg hc, ih hes' (n + 1) hc]
        have : (limit - n).toNat = (limit - (n + 1 : Nat)).toNat + 1 := by omega
        rw [this]
        simp only [Bool.false_eq_true, if_false, List.take_succ_cons, List.map_cons, List.length_cons, Prod.mk.injEq,
          List.cons.injEq, and_true]
        refine ⟨answer_eq h (hes e (List.mem_cons_self ..)) hl, ?_⟩
        congr 2
        omega

theorem rangeLoop_count {limit : Int} {ko : Bool} (es : List (Bytes × Index)) (n : Nat) :
    (rangeLoop s limit ko true n es).1 = [] := by
  induction es generalizing n with
  | nil => rfl
  | cons e es ih =>
    rw [rangeLoop]
    split
    · split
      · rfl
      · simp only [if_true]; exact ih (n + 1)
    · exact ih n

/-- The loop of a range read over what is visible. -/
def loopOf (limit : Int) (ko co : Bool) : Nat → List (Bytes × Item) → List Kv × Bool
  | _, [] => ([], false)
  | n, e :: es =>
    if limit < (n + 1 : Nat) then ([], true)
    else
      let (kvs, more) := loopOf limit ko co (n + 1) es
      if co then (kvs, more) else (answer ko e :: kvs, more)

theorem range_loop_more {limit : Int} {ko : Bool} (es : List (Bytes × Index)) (n : Nat) :
    (rangeLoop s limit ko true n es).2 = (rangeLoop s limit ko false n es).2 := by
  induction es generalizing n with
  | nil => rfl
  | cons e es ih =>
    rw [rangeLoop, rangeLoop]
    split
    · split
      · rfl
      · simp only [if_true, Bool.false_eq_true, if_false]; exact ih (n + 1)
    · exact ih n

/-- The answer depends only on what is visible. -/
theorem range_loop_congr {N' : Prop} {U' : Rev → Bytes → Prop} {t : Node} {limit : Int} {ko co : Bool} (h : Good N U s)
    (h' : Good N' U' t) {es fs : List (Bytes × Index)} (hes : ∀ e ∈ es, s.index.get e.1 = some e.2)
    (hfs : ∀ e ∈ fs, t.index.get e.1 = some e.2) (hv : visible s es = visible t fs) (n : Nat) :
    rangeLoop s limit ko co n es = rangeLoop t limit ko co n fs := by
  -- the answer computed from the visible list
  have key : ∀ {N : Prop} {U : Rev → Bytes → Prop} {s : Node}, Good N U s → ∀ es : List (Bytes × Index),
      (∀ e ∈ es, s.index.get e.1 = some e.2) → ∀ n : Nat,
      rangeLoop s limit ko co n es = loopOf limit ko co n (visible s es) := by
    intro N U s h es
    induction es with
    | nil => intro _ n; rfl
    | cons e es ih =>
      intro hes n
      have hes' : ∀ e ∈ es, s.index.get e.1 = some e.2 := fun x hx => hes x (List.mem_cons_of_mem _ hx)
      rw [rangeLoop]
      cases hl : e.2.live with
      | false =>
        have hv : visible s (e :: es) = visible s es := by simp [visible, hl]
        simp only [Bool.false_eq_true, if_false]
        rw [hv, ih hes']
      | true =>
        have hv : visible s (e :: es) = (e.1, (s.record e.2.mod).item) :: visible s es := by
          simp [visible, hl]
        rw [hv, loopOf]
        simp only [if_true]
        rw [ih hes' (n + 1), answer_eq h (hes e (List.mem_cons_self ..)) hl]
  rw [key h es hes n, key h' fs hfs n, hv]

/-- The indexes a request looks at. -/
def looks (maxKey : Nat) (s : Node) (key stop : Bytes) : List (Bytes × Index) :=
  if stop = [] then
    match s.index.get key with
    | none => []
    | some i => [(key, i)]
  else rangeIndex maxKey s key stop

theorem kvRange_eq (maxKey : Nat) (s : Node) (key stop : Bytes) (limit : Int) (ko co : Bool) :
    kvRange maxKey s key stop limit ko co =
      let r := rangeLoop s (if limit = 0 then 2 ^ 63 - 1 else limit) ko co 0 (looks maxKey s key stop)
      ⟨r.1, r.1.length, r.2⟩ := rfl

/-- The keys a request finds: those of its range, but with `stop = "\\0"` only below `0xff…`. -/
def Finds (maxKey : Nat) (key stop k : Bytes) : Prop :=
  InRange key stop k ∧ (stop = [0] → k < List.replicate maxKey 255)

theorem mem_looks {maxKey : Nat} {key stop : Bytes} (e : Bytes × Index) :
    e ∈ looks maxKey s key stop ∧ e.2.live = true ↔ Finds maxKey key stop e.1 ∧ s.index.get e.1 = some e.2 ∧ e.2.live = true := by
  unfold looks Finds InRange
  by_cases h0 : stop = []
  · simp only [h0, if_true]
    cases hi : s.index.get key with
    | none =>
      simp only [List.not_mem_nil, false_and, false_iff]
      rintro ⟨⟨h1, _⟩, h2, _⟩
      rw [h1, hi] at h2; cases h2
    | some i =>
      simp only [List.mem_singleton]
      constructor
      · rintro ⟨rfl, h2⟩
        exact ⟨⟨rfl, fun h => by cases h⟩, hi, h2⟩
      · rintro ⟨⟨h1, _⟩, h2, h3⟩
        rw [h1, hi] at h2
        cases h2
        exact ⟨by rw [← h1], h3⟩
  · simp only [if_neg h0]
    simp only [rangeIndex, List.mem_filter, takeWhile_lt (CF.asc_seek _ _), CF.mem_seek, Bool.and_eq_true, if_neg h0]
    have hmem : ∀ e : Bytes × Index, e ∈ s.index.l ↔ s.index.get e.1 = some e.2 := fun e => CF.mem_iff_get s.index e.1 e.2
    by_cases h1 : stop = [0]
    · simp only [h1, if_true, hmem, decide_eq_true_eq, ← List.not_lt]
      constructor
      · rintro ⟨⟨⟨⟨a, b⟩, c⟩, d, f⟩, g⟩; exact ⟨⟨b, fun _ => c⟩, a, g⟩
      · rintro ⟨⟨b, c⟩, a, g⟩; exact ⟨⟨⟨⟨a, b⟩, c trivial⟩, g, b⟩, g⟩
    · simp only [if_neg h1, hmem, Bool.and_eq_true, decide_eq_true_eq, ← List.not_lt]
      constructor
      · rintro ⟨⟨⟨⟨a, b⟩, c⟩, d, f⟩, g⟩; exact ⟨⟨⟨b, c⟩, fun h => absurd h (by simpa using h1)⟩, a, g⟩
      · rintro ⟨⟨⟨b, c⟩, _⟩, a, g⟩; exact ⟨⟨⟨⟨a, b⟩, c⟩, g, b, c⟩, g⟩

theorem looks_get {maxKey : Nat} {key stop : Bytes} : ∀ e ∈ looks maxKey s key stop, s.index.get e.1 = some e.2 := by
  intro e he
  unfold looks at he
  split at he
  · split at he
    · cases he
    · next i hi => rw [List.mem_singleton] at he; subst he; exact hi
  · simp only [rangeIndex, List.mem_filter, takeWhile_lt (CF.asc_seek _ _), CF.mem_seek] at he
    exact (CF.mem_iff_get s.index e.1 e.2).1 he.1.1.1

theorem looks_asc {maxKey : Nat} {key stop : Bytes} : Asc (looks maxKey s key stop) := by
  unfold looks
  split
  · split
    · exact List.Pairwise.nil
    · exact List.pairwise_singleton ..
  · exact List.Pairwise.sublist (List.filter_sublist.trans (List.takeWhile_sublist _)) (CF.asc_seek _ _)

theorem visible_lists {maxKey : Nat} {key stop : Bytes} :
    Lists (abs s) (Finds maxKey key stop) (visible s (looks maxKey s key stop)) := by
  constructor
  · unfold visible
    refine List.Pairwise.filterMap _ ?_ looks_asc
    intro a b hab x hx y hy
    split at hx <;> cases hx
    split at hy <;> cases hy
    exact hab
  · intro k x
    simp only [visible, List.mem_filterMap]
    constructor
    · rintro ⟨e, he, hx⟩
      split at hx
      · next hl =>
        cases hx
        have := (mem_looks (maxKey := maxKey) (key := key) (stop := stop) e).1 ⟨he, hl⟩
        refine ⟨this.1, ?_⟩
        simp [abs, this.2.1, hl]
      · cases hx
    · rintro ⟨hf, hx⟩
      unfold abs at hx
      split at hx
      · cases hx
      · next i hi =>
        split at hx
        · next hl =>
          cases hx
          exact ⟨(k, i), ((mem_looks (maxKey := maxKey) (k, i)).2 ⟨hf, hi, hl⟩).1, by simp [hl]⟩
        · cases hx

/-- There is one such list. -/
theorem Lists.unique {m : Bytes → Option Item} {P : Bytes → Prop} {l l' : List (Bytes × Item)} (h : Lists m P l)
    (h' : Lists m P l') : l = l' := by
  have key : ∀ (l l' : List (Bytes × Item)), l.Pairwise (fun a b => a.1 < b.1) → l'.Pairwise (fun a b => a.1 < b.1) →
      (∀ x, x ∈ l ↔ x ∈ l') → l = l' := by
    intro l
    induction l with
    | nil =>
      intro l' _ _ hm
      cases l' with
      | nil => rfl
      | cons x l' => exact absurd ((hm x).2 (List.mem_cons_self ..)) (List.not_mem_nil)
    | cons a l ih =>
      intro l' hp hp' hm
      cases l' with
      | nil => exact absurd ((hm a).1 (List.mem_cons_self ..)) (List.not_mem_nil)
      | cons b l' =>
        have hpa := List.pairwise_cons.1 hp
        have hpb := List.pairwise_cons.1 hp'
        have hab : a = b := by
          rcases List.mem_cons.1 ((hm a).1 (List.mem_cons_self ..)) with e | e
          · exact e
          · rcases List.mem_cons.1 ((hm b).2 (List.mem_cons_self ..)) with e' | e'
            · exact e'.symm
            · exact absurd (hpb.1 _ e) (KeyOrder.asymm (hpa.1 _ e'))
        subst hab
        congr 1
        refine ih l' hpa.2 hpb.2 fun x => ?_
        constructor
        · intro hx
          rcases List.mem_cons.1 ((hm x).1 (List.mem_cons_of_mem _ hx)) with e | e
          · subst e; exact absurd (hpa.1 _ hx) (KeyOrder.irrefl _)
          · exact e
        · intro hx
          rcases List.mem_cons.1 ((hm x).2 (List.mem_cons_of_mem _ hx)) with e | e
          · subst e; exact absurd (hpb.1 _ hx) (KeyOrder.irrefl _)
          · exact e
  exact key l l' h.asc h'.asc fun ⟨k, x⟩ => (h.mem k x).trans (h'.mem k x).symm

/-- Every key of at most `n` bytes but one is below `n` bytes `0xff`. -/
theorem below_ff (n : Nat) (k : Bytes) (h : k.length ≤ n) (hne : k ≠ List.replicate n 255) : k < List.replicate n 255 := by
  induction n generalizing k with
  | zero =>
    cases k with
    | nil => exact absurd rfl hne
    | cons a k => simp at h
  | succ n ih =>
    rw [List.replicate_succ] at hne ⊢
    cases k with
    | nil => exact List.nil_lt_cons ..
    | cons a k =>
      rw [List.cons_lt_cons_iff]
      by_cases ha : a = 255
      · refine .inr ⟨ha, ih k (by simpa using h) fun e => hne (by rw [ha, e])⟩
      · left
        have h1 := a.toNat_lt
        have h2 : a.toNat ≠ 255 := fun e => ha (UInt8.toNat_inj.1 (by simpa using e))
        rw [UInt8.lt_iff_toNat_lt]
        change a.toNat < 255
        omega

/-! ### Records read later than the indexes -/

theorem rangeLoop_recs {t : Node} {limit : Int} {ko co : Bool} (es : List (Bytes × Index))
    (h : ∀ e ∈ es, e.2.live = true → t.revs e.2.mod = s.revs e.2.mod) (n : Nat) :
    rangeLoop t limit ko co n es = rangeLoop s limit ko co n es := by
  induction es generalizing n with
  | nil => rfl
  | cons e es ih =>
    have h' : ∀ e ∈ es, e.2.live = true → t.revs e.2.mod = s.revs e.2.mod := fun x hx => h x (List.mem_cons_of_mem _ hx)
    rw [rangeLoop, rangeLoop]
    split
    · next hl =>
      split
      · rfl
      · rw [ih h' (n + 1)]
        simp only [Node.record, h e (List.mem_cons_self ..) hl]
    · exact ih h' n

theorem ops_keep (ops : List Op) (s : Node) (main : Option Int) (sub : Int) (hs : 1 ≤ sub) (h1 : main = none → sub = 1)
    (hc : ∀ op ∈ ops, op.draws = true) (r : Rev) (hr : ∀ k, Below (mainOf s main) sub r k) :
    (opsRun s main sub ops).2.1.revs r = s.revs r := by
  induction ops generalizing s main sub with
  | nil => rfl
  | cons op ops ih =>
    have hne : r ≠ ⟨mainOf s main, sub⟩ := fun e => not_below [] (e ▸ hr [])
    have hc' : ∀ op ∈ ops, op.draws = true := fun x hx => hc x (List.mem_cons_of_mem _ hx)
    have step : ∀ t : Node, t.revs r = s.revs r → (opsRun t (some (mainOf s main)) (sub + 1) ops).2.1.revs r = s.revs r := by
      intro t ht
      rw [ih t (some (mainOf s main)) (sub + 1) (by omega) (fun h => by cases h) hc' ?_, ht]
      intro k
      exact below_plus (k := k) hs r k (.inl (hr k))
    have hdr : (drawRev s main sub).2 = ⟨mainOf s main, sub⟩ ∧ (drawRev s main sub).1.revs = s.revs := by
      cases main <;> exact ⟨rfl, rfl⟩
    cases op with
    | put k il l iv v =>
      simp only [opsRun]
      rw [show (drawRev s main sub).2.main = mainOf s main from by rw [hdr.1]]
      refine step _ ?_
      have : ∀ t ∈ (putApply (drawRev s main sub).1 k (drawRev s main sub).2 il l iv v).1, t.revs r = s.revs r := by
        intro t ht
        simp only [putApply] at ht
        generalize (if il = true then _ else _ : Int) = L at ht
        split at ht
        · cases ht
        · simp only [List.mem_cons, List.not_mem_nil, or_false] at ht
          rcases ht with rfl | rfl <;> simp only [Node.setRec, Node.setIndex, hdr.1, if_neg hne, hdr.2]
      rw [List.getLastD_eq_getLast?]
      cases hl : (putApply (drawRev s main sub).1 k (drawRev s main sub).2 il l iv v).1.getLast? with
      | none => simp only [Option.getD_none, hdr.2]
      | some t => exact this t (List.mem_of_getLast? hl)
    | delete k =>
      simp only [opsRun]
      rw [show (drawRev s main sub).2.main = mainOf s main from by rw [hdr.1]]
      refine step _ ?_
      have : ∀ t ∈ deleteApply (drawRev s main sub).1 k (drawRev s main sub).2, t.revs r = s.revs r := by
        intro t ht
        unfold deleteApply at ht
        split at ht
        · cases ht
        · simp only [List.mem_cons, List.not_mem_nil, or_false] at ht
          rcases ht with rfl | rfl <;> simp only [Node.setRec, Node.setIndex, hdr.1, if_neg hne, hdr.2]
      rw [List.getLastD_eq_getLast?]
      cases hl : (deleteApply (drawRev s main sub).1 k (drawRev s main sub).2).getLast? with
      | none => simp only [Option.getD_none, hdr.2]
      | some t => exact this t (List.mem_of_getLast? hl)
    | compact k rev => exact absurd (hc _ (List.mem_cons_self ..)) (by simp [Op.draws])

theorem apply_keep {S : Spec} {e : Entry} (h : Ok N s S) (hc : ∀ op ∈ e.inc.ops, op.draws = true) (r : Rev)
    (hr : ∀ k, Below (S.rev + 1) 1 r k) : (s.apply e).revs r = s.revs r := by
  unfold Node.apply
  split
  · rfl
  · obtain ⟨a, b⟩ := leases_spec e.inc.leases s S.rev
    dsimp only
    change (opsRun _ none 1 e.inc.ops).2.1.revs r = _
    rw [leasesRun_last, ops_keep _ _ _ _ (by omega) (fun _ => rfl) hc, b.revs]
    simpa only [mainOf, Option.getD_none, b.memRev, h.mem, nextId] using hr

end Verif.CoorKv
