import Verif.CoorKv.RangeLemmas

/-!
# C31, C32, C33: the coordinator's key-value store is a versioned map

For every sequence of log entries, whatever puts, deletes, compactions and leases they hold.
-/

namespace Verif.CoorKv
attribute [-instance] Verif.Txn.instDecidableLt_verif Verif.Txn.KeyOrder.toLT
open Verif.Codec (Bytes)
open Verif.Txn (CF KeyOrder)

/-- A replica that has applied a log. -/
def run (es : List Entry) : Node := es.foldl Node.apply Node.init

/-- What the log means. -/
def meaning (es : List Entry) : Spec := es.foldl Spec.entry Spec.init

/-- The entries of a raft log: growing indexes. -/
structure Log (es : List Entry) : Prop where
  asc : es.Pairwise fun a b => a.index < b.index
  pos : ∀ e ∈ es, 0 < e.index

instance (es : List Entry) : Decidable (Log es) :=
  decidable_of_iff ((es.Pairwise fun a b => a.index < b.index) ∧ ∀ e ∈ es, 0 < e.index)
    ⟨fun h => ⟨h.1, h.2⟩, fun h => ⟨h.1, h.2⟩⟩

/-- `KvPut` refuses longer keys (`kv_control_kv.cc:368-372`). -/
def KeysWithin (maxKey : Nat) (es : List Entry) : Prop :=
  ∀ e ∈ es, ∀ op ∈ e.inc.ops, ∀ k il l iv v, op = .put k il l iv v → k.length ≤ maxKey

/-! ### Helpers -/

theorem entry_empty {S : Spec} {e : Entry} (h : e.inc.isEmpty = true) : S.entry e = S := by
  simp only [Inc.isEmpty, Bool.and_eq_true, List.isEmpty_iff] at h
  obtain ⟨⟨h1, h2⟩, h3⟩ := h
  simp [Spec.entry, h1, h2]

theorem apply_ok {N : Prop} {s : Node} {S : Spec} {e : Entry} (h : Ok N s S) (hi : s.applied < e.index)
    (hN : (e.inc.ops.any fun o => !o.draws) = true → N) :
    Ok N (s.apply e) (S.entry e) ∧ (s.apply e).applied ≤ e.index := by
  unfold Node.apply
  split
  · next hs =>
    have : e.inc.isEmpty = true := by
      simp only [Node.skips, Bool.or_eq_true, Bool.and_eq_true, decide_eq_true_eq] at hs
      rcases hs with hs | hs
      · omega
      · exact hs
    rw [entry_empty this]
    exact ⟨h, by omega⟩
  · exact ⟨entry_ok h hN, Int.le_refl _⟩

theorem fold_ok {N : Prop} (es : List Entry) {s : Node} {S : Spec} (h : Ok N s S) (hl : ∀ e ∈ es, s.applied < e.index)
    (hp : es.Pairwise fun a b => a.index < b.index) (hN : ∀ e ∈ es, (e.inc.ops.any fun o => !o.draws) = true → N) :
    Ok N (es.foldl Node.apply s) (es.foldl Spec.entry S) := by
  induction es generalizing s S with
  | nil => exact h
  | cons e es ih =>
    have hp' := List.pairwise_cons.1 hp
    obtain ⟨a, b⟩ := apply_ok h (hl e (List.mem_cons_self ..)) (hN e (List.mem_cons_self ..))
    refine ih a (fun x hx => ?_) hp'.2 fun x hx => hN x (List.mem_cons_of_mem _ hx)
    have := hp'.1 x hx
    omega

theorem run_ok {es : List Entry} (h : Log es) : Ok True (run es) (meaning es) :=
  fold_ok es init_ok (fun e he => h.pos e he) h.asc fun _ _ _ => trivial

theorem abs_run {es : List Entry} (h : Log es) : abs (run es) = (meaning es).map := by
  have := congrArg Spec.map (run_ok h).spec
  exact this

theorem op_within {maxKey : Nat} {S : Spec} {m : Int} (op : Op)
    (ho : ∀ k il l iv v, op = .put k il l iv v → k.length ≤ maxKey) (h : ∀ k x, S.map k = some x → k.length ≤ maxKey) :
    ∀ k x, (S.op m op).map k = some x → k.length ≤ maxKey := by
  intro k x hx
  cases op with
  | put k' il l iv v =>
    simp only [Spec.op] at hx
    by_cases hk : k = k'
    · rw [hk]; exact ho _ _ _ _ _ rfl
    · refine h k x ?_
      rw [← hx]
      split <;> split <;> simp [Spec.set, hk]
  | delete k' =>
    simp only [Spec.op, Spec.set] at hx
    split at hx
    · cases hx
    · exact h k x hx
  | compact => exact h k x hx

theorem ops_within {maxKey : Nat} {m : Int} (ops : List Op) {S : Spec}
    (ho : ∀ op ∈ ops, ∀ k il l iv v, op = .put k il l iv v → k.length ≤ maxKey)
    (h : ∀ k x, S.map k = some x → k.length ≤ maxKey) :
    ∀ k x, (ops.foldl (Spec.op m) S).map k = some x → k.length ≤ maxKey := by
  induction ops generalizing S with
  | nil => exact h
  | cons o ops ih =>
    exact ih (fun x hx => ho x (List.mem_cons_of_mem _ hx)) (op_within o (ho o (List.mem_cons_self ..)) h)

theorem leases_map (os : List LeaseOp) (S : Spec) : (os.foldl Spec.lease S).map = S.map := by
  induction os generalizing S with
  | nil => rfl
  | cons o os ih => rw [List.foldl_cons, ih]; cases o <;> rfl

theorem meaning_within {maxKey : Nat} (es : List Entry) {S : Spec} (he : KeysWithin maxKey es)
    (h : ∀ k x, S.map k = some x → k.length ≤ maxKey) :
    ∀ k x, (es.foldl Spec.entry S).map k = some x → k.length ≤ maxKey := by
  induction es generalizing S with
  | nil => exact h
  | cons e es ih =>
    refine ih (fun x hx => he x (List.mem_cons_of_mem _ hx)) ?_
    intro k x hx
    exact ops_within e.inc.ops (he e (List.mem_cons_self ..)) (by rw [leases_map]; exact h) k x hx

/-- A range read, in terms of what can be seen. -/
theorem range_spec {N : Prop} {U : Rev → Bytes → Prop} {s : Node} (h : Good N U s) (maxKey : Nat) (key stop : Bytes)
    (limit : Int) (ko : Bool) (hl : 0 ≤ limit) :
    ∃ l, Lists (abs s) (Finds maxKey key stop) l ∧ (l.length < 2 ^ 63 →
      let n := if limit = 0 then l.length else limit.toNat
      kvRange maxKey s key stop limit ko false = ⟨(l.take n).map (answer ko), min n l.length, decide (n < l.length)⟩) := by
  refine ⟨_, visible_lists, ?_⟩
  intro hlen
  dsimp only
  rw [kvRange_eq]
  generalize hv : visible s (looks maxKey s key stop) = l at hlen ⊢
  by_cases h0 : limit = 0
  · rcases rangeLoop_spec (limit := 2 ^ 63 - 1) (ko := ko) h (looks maxKey s key stop) looks_get 0 with e | e
    · simp only [h0, if_true]
      rw [e, hv]
      have hn : ((2 : Int) ^ 63 - 1 - (0 : Nat)).toNat = 2 ^ 63 - 1 := by decide
      have hd : decide ((2 : Int) ^ 63 - 1 < ((0 + l.length : Nat) : Int)) = false := by
        rw [decide_eq_false_iff_not]; omega
      have ht : l.take (2 ^ 63 - 1) = l := List.take_of_length_le (by omega)
      rw [hn, hd, ht]
      simp
    · simp at e
  · rcases rangeLoop_spec (limit := limit) (ko := ko) h (looks maxKey s key stop) looks_get 0 with e | e
    · simp only [h0, if_false]
      rw [e, hv]
      have hn : (limit - (0 : Nat)).toNat = limit.toNat := by omega
      rw [hn]
      simp only [List.length_map, List.length_take, RangeOut.mk.injEq, true_and]
      rw [decide_eq_decide]
      omega
    · simp at e; omega

/-! ### The theorems -/

/-- **C31.** After any log, a range read gives the keys of the range that exist, in ascending
order, each with the value, creation revision, last revision, version and lease that the log
gives it (`Spec.entry`), up to the limit, and says whether there are more.  The one exception
is the key of the greatest length allowed, all bytes `0xff`, in a read without an end. -/
theorem C31_range (maxKey : Nat) (es : List Entry) (h : Log es) (hk : KeysWithin maxKey es) (key stop : Bytes)
    (limit : Int) (keysOnly : Bool) (hl : 0 ≤ limit) :
    ∃ l, Lists (meaning es).map (fun k => InRange key stop k ∧ (stop = [0] → k ≠ List.replicate maxKey 255)) l ∧
      (l.length < 2 ^ 63 →
        let n := if limit = 0 then l.length else limit.toNat
        kvRange maxKey (run es) key stop limit keysOnly false =
          ⟨(l.take n).map (answer keysOnly), min n l.length, decide (n < l.length)⟩) := by
  obtain ⟨l, hl, hr⟩ := range_spec (run_ok h).good maxKey key stop limit keysOnly hl
  refine ⟨l, ⟨hl.asc, fun k x => (hl.mem k x).trans ?_⟩, hr⟩
  rw [abs_run h]
  constructor
  · rintro ⟨⟨a, b⟩, c⟩
    exact ⟨⟨a, fun hs e => absurd (e ▸ b hs) (List.lt_irrefl _)⟩, c⟩
  · rintro ⟨⟨a, b⟩, c⟩
    exact ⟨⟨a, fun hs => below_ff maxKey k (meaning_within es hk (fun _ _ hh => by cases hh) k x c) (b hs)⟩, c⟩

/-- The revision counter of the replica is the number the log gives. -/
theorem C31_revision (es : List Entry) (h : Log es) : (run es).memRev = some (meaning es).rev := (run_ok h).mem

/-- Two entries put two keys, one deletes and one puts again. -/
def exLog : List Entry :=
  [⟨1, 1, ⟨[.put 7 ⟨10, 0, 0⟩], [], [7]⟩⟩,
   ⟨1, 2, ⟨[], [.put [98] false 7 false [1]], []⟩⟩,
   ⟨1, 3, ⟨[], [.put [97] false 0 false [2]], []⟩⟩,
   ⟨1, 4, ⟨[], [.put [98] true 7 false [3]], []⟩⟩,
   ⟨1, 5, ⟨[], [.delete [97]], []⟩⟩,
   ⟨2, 6, ⟨[], [.put [97] false 0 false [4]], []⟩⟩,
   ⟨2, 7, ⟨[], [.compact [97] 10005, .compact [98] 10005], []⟩⟩]

example : Log exLog := by decide
example : KeysWithin 4096 exLog := by
  intro e he op ho k il l iv v hh
  simp only [exLog, List.mem_cons, List.not_mem_nil, or_false] at he
  rcases he with rfl | rfl | rfl | rfl | rfl | rfl | rfl <;> simp at ho
  all_goals first | (subst ho; cases hh; decide) | (subst ho; cases hh; done) | (rcases ho with rfl | rfl <;> cases hh)
example : kvRange 4096 (run exLog) [97] [0] 0 false false =
    ⟨[⟨[97], [4], 10005, 10005, 1, 0⟩, ⟨[98], [3], 10001, 10003, 2, 7⟩], 2, false⟩ := by decide +kernel
example : kvRange 4096 (run exLog) [97] [0] 1 true false = ⟨[⟨[97], [], 10005, 10005, 1, 0⟩], 1, true⟩ := by decide +kernel

/-- **The exception is real.**  For every maximal key length there is a log after which a read
of everything misses a key that a read of this key finds. -/
theorem C31_last_key_false (maxKey : Nat) (hm : 0 < maxKey) :
    ∃ es, Log es ∧ KeysWithin maxKey es ∧
      (kvRange maxKey (run es) (List.replicate maxKey 255) [] 0 false false).count = 1 ∧
      (kvRange maxKey (run es) [] [0] 0 false false).count = 0 := by
  refine ⟨[⟨1, 1, ⟨[], [.put (List.replicate maxKey 255) false 0 false [1]], []⟩⟩], ⟨by simp, by simp⟩, ?_, ?_, ?_⟩
  · intro e he op ho k il l iv v hh
    simp only [List.mem_singleton] at he
    subst he
    simp only [List.mem_singleton] at ho
    subst ho
    cases hh
    simp
  · generalize List.replicate maxKey (255 : UInt8) = K
    have hi : (run [⟨1, 1, ⟨[], [.put K false 0 false [1]], []⟩⟩]).index.get K = some ⟨⟨10001, 1⟩, [Gen.fresh ⟨10001, 1⟩]⟩ :=
      (CF.get_put CF.empty K _ K).trans (if_pos rfl)
    rw [kvRange_eq]
    unfold looks
    rw [if_pos rfl, hi]
    rfl
  · generalize hK : List.replicate maxKey (255 : UInt8) = K
    have hne : K ≠ [] := by rw [← hK]; intro h; have := congrArg List.length h; simp at this; omega
    have : rangeIndex maxKey (run [⟨1, 1, ⟨[], [.put K false 0 false [1]], []⟩⟩]) [] [0] = [] := by
      unfold rangeIndex
      simp only [if_true]
      rw [hK]
      have : (run [⟨1, 1, ⟨[], [.put K false 0 false [1]], []⟩⟩]).index.seek [] =
          [(K, ⟨⟨10001, 1⟩, [Gen.fresh ⟨10001, 1⟩]⟩)] := by
        cases K with
        | nil => exact absurd rfl hne
        | cons a K => rfl
      rw [this, List.takeWhile_cons]
      have : decide (K < K) = false := by rw [decide_eq_false_iff_not]; exact List.lt_irrefl _
      simp [this]
    rw [kvRange_eq]
    unfold looks
    rw [if_neg (show ¬ ([0] : Bytes) = [] from by decide), this]
    rfl

theorem fold_keep {N : Prop} (es : List Entry) {s : Node} {S : Spec} (h : Ok N s S) (hl : ∀ e ∈ es, s.applied < e.index)
    (hp : es.Pairwise fun a b => a.index < b.index) (hc : ∀ e ∈ es, ∀ op ∈ e.inc.ops, op.draws = true) (r : Rev)
    (hr : ∀ k, Below (S.rev + 1) 1 r k) : (es.foldl Node.apply s).revs r = s.revs r := by
  induction es generalizing s S with
  | nil => rfl
  | cons e es ih =>
    have hp' := List.pairwise_cons.1 hp
    have hce := hc e (List.mem_cons_self ..)
    obtain ⟨a, b⟩ := apply_ok h (hl e (List.mem_cons_self ..)) (fun hh => by
      obtain ⟨o, ho, hd⟩ := List.any_eq_true.1 hh
      rw [hce o ho] at hd; cases hd)
    refine (ih a (fun x hx => ?_) hp'.2 (fun x hx => hc x (List.mem_cons_of_mem _ hx)) ?_).trans (apply_keep h hce r hr)
    · have := hp'.1 x hx
      omega
    · intro k
      obtain ⟨h1, h2⟩ := hr k
      refine ⟨h1, ?_⟩
      have : S.rev ≤ (S.entry e).rev := by
        have : (S.entry e).rev = if e.inc.ops.any Op.draws then S.rev + 1 else S.rev := rfl
        rw [this]; split <;> omega
      omega

theorem run_applied {es fs : List Entry} (h : Log (es ++ fs)) : ∀ e ∈ fs, (run es).applied < e.index := by
  have key : ∀ (es : List Entry) (s : Node) (b : Int), s.applied < b → (∀ x ∈ es, x.index < b) →
      (es.foldl Node.apply s).applied < b := by
    intro es
    induction es with
    | nil => intro s b hs _; exact hs
    | cons x es ih =>
      intro s b hs hx
      refine ih _ b ?_ fun y hy => hx y (List.mem_cons_of_mem _ hy)
      have := hx x (List.mem_cons_self ..)
      unfold Node.apply
      split
      · exact hs
      · exact this
  intro e he
  exact key es Node.init e.index (h.pos e (List.mem_append_right _ he)) fun x hx =>
    (List.pairwise_append.1 h.asc).2.2 x hx e he

/-- **A read is a snapshot.**  `KvRange` reads the indexes first and the records one by one
afterwards, without a lock.  Whatever entries without compactions are applied meanwhile, and
however far each record is read behind (`recs r` is the record `r` at the time it is read), the
answer is the one of the moment the indexes were read. -/
theorem C31_read_race_partial (maxKey : Nat) (es : List Entry) (h : Log es) (recs : Rev → Option Rec)
    (hrecs : ∀ r, ∃ es', Log (es ++ es') ∧ (∀ e ∈ es', ∀ op ∈ e.inc.ops, op.draws = true) ∧
      recs r = (run (es ++ es')).revs r)
    (key stop : Bytes) (limit : Int) (keysOnly countOnly : Bool) :
    kvRange maxKey { run es with revs := recs } key stop limit keysOnly countOnly =
      kvRange maxKey (run es) key stop limit keysOnly countOnly := by
  rw [kvRange_eq, kvRange_eq]
  have hlooks : looks maxKey { run es with revs := recs } key stop = looks maxKey (run es) key stop := rfl
  rw [hlooks, rangeLoop_recs (s := run es)]
  intro e he hl
  obtain ⟨es', h', hc, hr⟩ := hrecs e.2.mod
  change recs e.2.mod = _
  rw [hr]
  have hok := run_ok h
  have hbelow := (hok.good.keys e.1 e.2 (looks_get e he)).mod
  have := fold_keep es' hok (run_applied h') (List.pairwise_append.1 h'.asc).2.1 hc e.2.mod (fun k => hbelow)
  rw [run, List.foldl_append]
  exact this

example : ∃ es', Log (exLog.take 3 ++ es') ∧ (∀ e ∈ es', ∀ op ∈ e.inc.ops, op.draws = true) ∧ es'.length = 3 :=
  ⟨(exLog.drop 3).take 3, by decide, by decide, by decide⟩

/-- With a compaction in between the answer can hold an entry whose key is empty. -/
theorem C31_read_race_false :
    ∃ es es', Log (es ++ es') ∧
      (kvRange 4096 (run es) [97] [0] 0 false false).kvs = [⟨[97], [2], 10001, 10001, 1, 0⟩] ∧
      (kvRange 4096 { run es with revs := (run (es ++ es')).revs } [97] [0] 0 false false).kvs = [⟨[], [], 0, 0, 0, 0⟩] :=
  ⟨[⟨1, 1, ⟨[], [.put [97] false 0 false [2]], []⟩⟩],
   [⟨1, 2, ⟨[], [.put [97] false 0 false [3]], []⟩⟩, ⟨1, 3, ⟨[], [.compact [97] 10002], []⟩⟩],
   by decide, by decide +kernel, by decide +kernel⟩

/-- **C32.** A compaction, of any keys at any revisions, changes no read. -/
theorem C32_compaction (es : List Entry) (e : Entry) (h : Log (es ++ [e])) (hc : ∀ op ∈ e.inc.ops, op.draws = false)
    (hl : e.inc.leases = []) (maxKey : Nat) (key stop : Bytes) (limit : Int) (keysOnly countOnly : Bool) :
    kvRange maxKey (run (es ++ [e])) key stop limit keysOnly countOnly =
      kvRange maxKey (run es) key stop limit keysOnly countOnly := by
  have h' : Log es := ⟨(List.pairwise_append.1 h.asc).1, fun x hx => h.pos x (List.mem_append_left _ hx)⟩
  have hm : meaning (es ++ [e]) = meaning es := by
    have key : ∀ (ops : List Op) (m : Int) (S : Spec), (∀ op ∈ ops, op.draws = false) → ops.foldl (Spec.op m) S = S := by
      intro ops m
      induction ops with
      | nil => intro S _; rfl
      | cons o ops ih =>
        intro S hh
        rw [List.foldl_cons]
        have : Spec.op m S o = S := by
          have := hh o (List.mem_cons_self ..)
          cases o with
          | put => cases this
          | delete => cases this
          | compact => rfl
        rw [this, ih S fun x hx => hh x (List.mem_cons_of_mem _ hx)]
    have hany : e.inc.ops.any Op.draws = false := by
      rw [List.any_eq_false]
      intro op ho; rw [hc op ho]; decide
    simp only [meaning, List.foldl_append, List.foldl_cons, List.foldl_nil]
    simp only [Spec.entry, hl, List.foldl_nil, key _ _ _ hc, hany, Bool.false_eq_true, if_false]
  have habs : abs (run (es ++ [e])) = abs (run es) := by rw [abs_run h, abs_run h', hm]
  -- both reads see the same list
  have hvis : visible (run (es ++ [e])) (looks maxKey (run (es ++ [e])) key stop) =
      visible (run es) (looks maxKey (run es) key stop) := by
    have a := visible_lists (s := run (es ++ [e])) (maxKey := maxKey) (key := key) (stop := stop)
    rw [habs] at a
    exact a.unique visible_lists
  have hloop := range_loop_congr (limit := if limit = 0 then 2 ^ 63 - 1 else limit) (ko := keysOnly) (co := countOnly)
    (run_ok h).good (run_ok h').good looks_get looks_get hvis 0
  rw [kvRange_eq, kvRange_eq, hloop]

example : Log (exLog.take 6 ++ [⟨2, 7, ⟨[], [.compact [97] 10005, .compact [98] 10005], []⟩⟩]) := by decide
/-- A compaction that removes records. -/
example : ((run (exLog.take 6)).revs ⟨10001, 1⟩).isSome = true ∧ ((run exLog).revs ⟨10001, 1⟩).isSome = false := by decide +kernel

/-- **C33 is false.** A count-only request always answers 0. -/
theorem C33_count_only_false :
    (∀ maxKey s key stop limit keysOnly, (kvRange maxKey s key stop limit keysOnly true).count = 0) ∧
    ∃ es, Log es ∧ (kvRange 4096 (run es) [97] [0] 0 false false).count = 2 := by
  refine ⟨?_, exLog, by decide, by decide +kernel⟩
  intro maxKey s key stop limit ko
  rw [kvRange_eq]
  simp only [rangeLoop_count, List.length_nil]

/-- **C33, what holds.** The count of an ordinary or keys-only request is the number of keys it
returns, and without a limit that is the number of keys in the range; a count-only request at
least says whether there are more than the limit. -/
theorem C33_count_partial (maxKey : Nat) (es : List Entry) (h : Log es) (hk : KeysWithin maxKey es) (key stop : Bytes)
    (limit : Int) (keysOnly : Bool) :
    ∃ l, Lists (meaning es).map (fun k => InRange key stop k ∧ (stop = [0] → k ≠ List.replicate maxKey 255)) l ∧
      (l.length < 2 ^ 63 →
        (kvRange maxKey (run es) key stop 0 keysOnly false).count = l.length ∧
        (kvRange maxKey (run es) key stop limit keysOnly true).more =
          (kvRange maxKey (run es) key stop limit keysOnly false).more) := by
  obtain ⟨l, h1, h2⟩ := C31_range maxKey es h hk key stop 0 keysOnly (Int.le_refl _)
  refine ⟨l, h1, fun hlen => ⟨?_, ?_⟩⟩
  · rw [h2 hlen]
    simp
  · simp only [kvRange_eq]
    exact range_loop_more _ _

end Verif.CoorKv
