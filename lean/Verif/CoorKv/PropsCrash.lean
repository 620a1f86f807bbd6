import Verif.CoorKv.CrashLemmas

/-!
# C36: the coordinator's key-value store after crashes

An entry is applied by several disk writes and the applied index is written last, so after a
crash in the middle of an entry a prefix of its writes is applied again.
-/

namespace Verif.CoorKv
attribute [-instance] Verif.Txn.instDecidableLt_verif Verif.Txn.KeyOrder.toLT
open Verif.Codec (Bytes)
open Verif.Txn (CF KeyOrder)

/-! ### Histories -/

/-- A replica and the number of entries of the log it has applied since its last start or before
its last snapshot. -/
structure Replica where
  node : Node
  pos : Nat

/-- `apply`: the next entry is applied.  `crash n back`: the process stops after `n` disk writes
of the next entry; it is started again, and the log is applied again from `back` entries before. -/
inductive Ev where
  | apply
  | crash (n back : Nat)
  deriving DecidableEq, Repr

def Replica.step (log : List Entry) (r : Replica) : Ev → Replica
  | .apply =>
    match log[r.pos]? with
    | none => r
    | some e => ⟨r.node.apply e, r.pos + 1⟩
  | .crash n back =>
    match log[r.pos]? with
    | none => ⟨r.node.restart, r.pos - back⟩
    | some e => ⟨r.node.crash e n, r.pos - back⟩

def Replica.run (log : List Entry) (evs : List Ev) : Replica := evs.foldl (Replica.step log) ⟨.init, 0⟩

/-- The crash point between the index of a put and the counter. -/
def afterPut (e : Entry) (n : Nat) : Bool :=
  match e.inc.ops with
  | [.put _ _ _ _ _] => n = e.inc.leases.length + 2
  | _ => false

/-- A crash that does not fall between the index of a put and the counter. -/
def Replica.avoid (log : List Entry) (r : Replica) (ev : Ev) : Bool :=
  match ev, log[r.pos]? with
  | .crash n _, some e => !afterPut e n
  | _, _ => true

/-- None of them does. -/
def Replica.avoids (log : List Entry) (r : Replica) : List Ev → Bool
  | [] => true
  | ev :: evs => r.avoid log ev && Replica.avoids log (r.step log ev) evs

/-- The log as the coordinator makes it: growing indexes, terms that do not fall, and one kind of
operation per entry. -/
structure LogOf (es : List Entry) : Prop where
  log : Log es
  terms : es.Pairwise fun a b => a.term ≤ b.term
  made : ∀ e ∈ es, Generated e.inc.ops

/-! ### Helpers -/

variable {N : Prop} {s : Node}

theorem Mid.restart {S : Spec} {e : Entry} (h : Mid N S e s) : Mid N S e s.restart :=
  ⟨h.applied, h.disk, h.disk, h.pos, by
    have : ∀ os : List LeaseOp, (os.foldl leaseApply s.restart).leases = (os.foldl leaseApply s).leases := by
      intro os
      refine CF.ext_get fun id => ?_
      rw [leases_get, leases_get]; rfl
    rw [this]; exact h.leases, h.keys.congr rfl rfl⟩

theorem Ok.restart {S : Spec} (h : Ok N s S) : Ok N s.restart S :=
  ⟨h.good.congr rfl rfl, h.disk, h.disk, h.pos, by
    have := h.spec
    rw [← this]
    exact specOf_congr rfl rfl rfl _⟩

theorem Done.restart {S : Spec} {e : Entry} (h : Done N S e s) : Done N S e s.restart :=
  ⟨h.ok.restart, h.applied, h.term⟩

/-- A crash in the middle of an entry, somewhere else than after the index of a put. -/
theorem Mid.crash {S : Spec} {e : Entry} (h : Mid N S e s) (n : Nat) (hn : afterPut e n = false) :
    (Mid N S e (s.crash e n) ∧ (s.crash e n).applied = s.applied ∧ (s.crash e n).term = s.term) ∨
      Done N S e (s.crash e n) := by
  unfold Node.crash
  split
  · exact .inl ⟨h.restart, rfl, rfl⟩
  · suffices hs : ∀ t, (s :: s.writes e)[n]? = some t →
        (Mid N S e t.restart ∧ t.applied = s.applied ∧ t.term = s.term) ∨ Done N S e t.restart by
      cases ht : (s :: s.writes e)[n]? with
      | none => exact .inl ⟨h.restart, rfl, rfl⟩
      | some t => exact hs t ht
    intro t ht
    cases n with
    | zero => simp at ht; subst ht; exact .inl ⟨h.restart, rfl, rfl⟩
    | succ n =>
      rw [List.getElem?_cons_succ] at ht
      obtain ⟨hr, htr⟩ := h.run
      have hlast := leasesRun_last e.inc.leases s
      unfold Node.writes at ht
      simp only [hlast, List.append_assoc] at ht
      rw [List.getElem?_append] at ht
      split at ht
      · -- in the leases
        obtain ⟨p, q, hpq, rfl⟩ := mem_leasesRun _ _ _ (List.mem_of_getElem? ht)
        have hk := (leases_spec p s S.rev).2
        refine .inl ⟨Mid.restart ⟨hk.applied ▸ h.applied, hk.memRev.trans h.mem, hk.diskRev ▸ h.disk, h.pos, ?_,
          h.keys.congr hk.index hk.revs⟩, hk.applied, hk.term⟩
        rw [hpq, leases_again p q s _ rfl, ← hpq]
        exact h.leases
      · next hlt =>
        rw [leasesRun_length] at ht hlt
        have hl := (leases_spec e.inc.leases s S.rev).2
        rw [List.getElem?_append] at ht
        split at ht
        · -- in the operations
          obtain ⟨a, b⟩ := htr _ t ht (by
            intro k il l iv v ho hn1
            have : n + 1 = e.inc.leases.length + 2 := by omega
            simp [afterPut, ho, this] at hn)
          have hd : initId 10000 t.diskRev = some S.rev := by rw [b.diskRev, hl.diskRev]; exact h.disk
          refine .inl ⟨⟨?_, hd, hd, h.pos, ?_, a.congr rfl rfl⟩, b.applied.trans hl.applied, b.term.trans hl.term⟩
          · have : t.applied = s.applied := b.applied.trans hl.applied
            rw [show t.restart.applied = t.applied from rfl, this]; exact h.applied
          · have := leases_again e.inc.leases [] s t.restart b.leases
            rw [List.append_nil] at this
            rw [this]; exact h.leases
        · have := List.mem_of_getElem? ht
          rw [List.mem_singleton] at this
          rw [this]
          exact .inr hr.done.restart

theorem Mid.apply {S : Spec} {e : Entry} (h : Mid N S e s) :
    Ok N (s.apply e) (S.entry e) ∧
      ((e.inc.isEmpty = true ∧ s.apply e = s) ∨ ((s.apply e).applied = e.index ∧ (s.apply e).term = e.term)) := by
  obtain ⟨hr, _⟩ := h.run
  unfold Node.apply
  split
  · next hs =>
    have he : e.inc.isEmpty = true := by
      simp only [Node.skips, Bool.or_eq_true, Bool.and_eq_true, decide_eq_true_eq] at hs
      rcases hs with hs | hs
      · have := h.applied; omega
      · exact hs
    refine ⟨?_, .inl ⟨he, rfl⟩⟩
    have hS := entry_empty (S := S) he
    simp only [Inc.isEmpty, Bool.and_eq_true, List.isEmpty_iff] at he
    obtain ⟨⟨h1, h2⟩, h3⟩ := he
    simp only [h1, h2, List.foldl_nil, opsRun] at hr
    refine ⟨hr.good, hr.mem, ?_, ?_, ?_⟩
    · rw [hS]; exact hr.disk
    · rw [hS]; exact hr.pos
    · exact Spec.ext' hr.map hr.leases rfl
  · simp only [leasesRun_last]
    exact ⟨hr.done.ok, .inr ⟨rfl, rfl⟩⟩

theorem meaning_take {log : List Entry} {h : Nat} {e : Entry} (he : log[h]? = some e) :
    meaning (log.take (h + 1)) = (meaning (log.take h)).entry e := by
  rw [List.take_add_one, he]
  simp [meaning, List.foldl_append]

/-- The replica has applied the first `h` entries and perhaps a part of the next. -/
structure Inv (log : List Entry) (r : Replica) (h : Nat) : Prop where
  pos : r.pos ≤ h
  top : h ≤ log.length
  skips : ∀ i e, i < h → log[i]? = some e → r.node.skips e = true
  state : Ok True r.node (meaning (log.take h)) ∧ (∀ e, log[h]? = some e → r.node.applied < e.index) ∨
    ∃ e, log[h]? = some e ∧ Mid True (meaning (log.take h)) e r.node

theorem log_index {log : List Entry} (hl : LogOf log) {i j : Nat} {a b : Entry} (hij : i < j) (ha : log[i]? = some a)
    (hb : log[j]? = some b) : a.index < b.index ∧ a.term ≤ b.term := by
  obtain ⟨h1, rfl⟩ := List.getElem?_eq_some_iff.1 ha
  obtain ⟨h2, rfl⟩ := List.getElem?_eq_some_iff.1 hb
  exact ⟨List.pairwise_iff_getElem.1 hl.log.asc i j h1 h2 hij, List.pairwise_iff_getElem.1 hl.terms i j h1 h2 hij⟩

theorem Inv.mid {log : List Entry} {r : Replica} {h : Nat} {e : Entry} (hl : LogOf log) (hi : Inv log r h)
    (he : log[h]? = some e) : Mid True (meaning (log.take h)) e r.node := by
  rcases hi.state with ⟨a, b⟩ | ⟨e', he', a⟩
  · exact a.mid (b e he) (hl.made e (List.mem_of_getElem? he)) fun _ => trivial
  · rw [he] at he'; cases he'; exact a

/-- After the entry at the mark. -/
theorem inv_next {log : List Entry} {h : Nat} {e : Entry} {t : Node} {pos : Nat} (hl : LogOf log) (he : log[h]? = some e)
    (hp : pos ≤ h + 1) (ok : Ok True t (meaning (log.take (h + 1)))) (hs : ∀ i x, i < h → log[i]? = some x → t.skips x = true)
    (ha : (t.skips e = true ∧ t.applied < e.index) ∨ (t.applied = e.index ∧ t.term = e.term)) :
    Inv log ⟨t, pos⟩ (h + 1) := by
  have hlt : h < log.length := (List.getElem?_eq_some_iff.1 he).1
  refine ⟨hp, hlt, ?_, .inl ⟨ok, ?_⟩⟩
  · intro i x hi hx
    by_cases e' : i = h
    · subst e'
      rw [he] at hx; cases hx
      rcases ha with ⟨a, _⟩ | ⟨a, b⟩
      · exact a
      · simp [Node.skips, a, b]
    · exact hs i x (by omega) hx
  · intro x hx
    have := (log_index hl (Nat.lt_succ_self h) he hx).1
    rcases ha with ⟨_, a⟩ | ⟨a, _⟩
    · exact Int.lt_trans a this
    · rw [a]; exact this

theorem skips_mono {s t : Node} {e : Entry} (h : s.skips e = true) (ha : s.applied ≤ t.applied) (ht : s.term ≤ t.term) :
    t.skips e = true := by
  simp only [Node.skips, Bool.or_eq_true, Bool.and_eq_true, decide_eq_true_eq] at h ⊢
  rcases h with h | h
  · exact .inl (by omega)
  · exact .inr h

/-- Entries before are skipped once an entry is applied. -/
theorem skips_done {log : List Entry} {h : Nat} {e : Entry} {t : Node} (hl : LogOf log) (he : log[h]? = some e)
    (ha : t.applied = e.index ∧ t.term = e.term) : ∀ i x, i < h → log[i]? = some x → t.skips x = true := by
  intro i x hi hx
  obtain ⟨a, b⟩ := log_index hl hi hx he
  simp only [Node.skips, ha.1, ha.2, Bool.or_eq_true, Bool.and_eq_true, decide_eq_true_eq]
  exact .inl ⟨by omega, b⟩

theorem Inv.step {log : List Entry} {r : Replica} {h : Nat} (hl : LogOf log) (hi : Inv log r h) (ev : Ev)
    (hav : ∀ n back e, ev = .crash n back → log[r.pos]? = some e → afterPut e n = false) :
    ∃ h', Inv log (r.step log ev) h' ∧ h ≤ h' := by
  obtain ⟨hpos, htop, hskips, hstate⟩ := id hi
  cases ev with
  | apply =>
    simp only [Replica.step]
    cases he : log[r.pos]? with
    | none => exact ⟨h, hi, Nat.le_refl _⟩
    | some e =>
      by_cases hlt : r.pos < h
      · refine ⟨h, ?_, Nat.le_refl _⟩
        have : r.node.apply e = r.node := by unfold Node.apply; rw [if_pos (hskips _ e hlt he)]
        simp only [this]
        exact ⟨hlt, htop, hskips, hstate⟩
      · have hph : r.pos = h := by omega
        rw [hph] at he
        obtain ⟨a, b⟩ := (hi.mid hl he).apply
        refine ⟨h + 1, ?_, by omega⟩
        rw [hph]
        refine inv_next hl he (Nat.le_refl _) (by rw [meaning_take he]; exact a) ?_ ?_
        · rcases b with ⟨_, b⟩ | b
          · rw [b]; exact hskips
          · exact skips_done hl he b
        · rcases b with ⟨b, b'⟩ | b
          · rw [b']
            exact .inl ⟨by simp [Node.skips, b], (hi.mid hl he).applied⟩
          · exact .inr b
  | crash n back =>
    simp only [Replica.step]
    have hrestart : ∀ t : Node, t = r.node.restart → Inv log ⟨t, r.pos - back⟩ h := by
      rintro t rfl
      refine ⟨by simp only; omega, htop, hskips, ?_⟩
      rcases hstate with ⟨a, b⟩ | ⟨e, he, a⟩
      · exact .inl ⟨a.restart, b⟩
      · exact .inr ⟨e, he, a.restart⟩
    cases he : log[r.pos]? with
    | none => exact ⟨h, hrestart _ rfl, Nat.le_refl _⟩
    | some e =>
      by_cases hlt : r.pos < h
      · refine ⟨h, hrestart _ ?_, Nat.le_refl _⟩
        unfold Node.crash
        rw [if_pos (hskips _ e hlt he)]
      · have hph : r.pos = h := by omega
        have hno := hav n back e rfl he
        rw [hph] at he
        rcases (hi.mid hl he).crash n hno with ⟨a, b, c⟩ | a
        · refine ⟨h, ⟨by simp only; omega, htop, ?_, .inr ⟨e, he, a⟩⟩, Nat.le_refl _⟩
          intro i x hix hx
          exact skips_mono (hskips i x hix hx) (Int.le_of_eq b.symm) (Int.le_of_eq c.symm)
        · refine ⟨h + 1, inv_next hl he (by omega) (by rw [meaning_take he]; exact a.ok) (skips_done hl he ⟨a.applied, a.term⟩)
            (.inr ⟨a.applied, a.term⟩), by omega⟩

theorem inv_run {log : List Entry} (hl : LogOf log) (evs : List Ev) (r : Replica) (h : Nat) (hi : Inv log r h)
    (hav : r.avoids log evs = true) : ∃ h', Inv log (evs.foldl (Replica.step log) r) h' := by
  induction evs generalizing r h with
  | nil => exact ⟨h, hi⟩
  | cons ev evs ih =>
    rw [Replica.avoids, Bool.and_eq_true] at hav
    obtain ⟨h', hi', _⟩ := hi.step hl ev (by
      rintro n back e rfl he
      have := hav.1
      simpa [Replica.avoid, he] using this)
    exact ih _ h' hi' hav.2

theorem inv_init {log : List Entry} (hl : LogOf log) : Inv log ⟨.init, 0⟩ 0 :=
  ⟨Nat.le_refl _, Nat.zero_le _, fun _ _ hi => absurd hi (Nat.not_lt_zero _),
    .inl ⟨init_ok, fun e he => hl.log.pos e (List.mem_of_getElem? he)⟩⟩

/-- What can be read depends on the represented state alone. -/
theorem reads_eq {M N : Prop} {s t : Node} {S : Spec} (h : Ok M s S) (h' : Ok N t S) (maxKey : Nat) (key stop : Bytes)
    (limit : Int) (keysOnly countOnly : Bool) :
    kvRange maxKey s key stop limit keysOnly countOnly = kvRange maxKey t key stop limit keysOnly countOnly := by
  have habs : abs s = abs t := by
    have a := congrArg Spec.map h.spec
    have b := congrArg Spec.map h'.spec
    exact Eq.trans (show abs s = S.map from a) (show S.map = abs t from b.symm)
  have hvis : visible s (looks maxKey s key stop) = visible t (looks maxKey t key stop) := by
    have a := visible_lists (s := s) (maxKey := maxKey) (key := key) (stop := stop)
    rw [habs] at a
    exact a.unique visible_lists
  have hloop := range_loop_congr (limit := if limit = 0 then 2 ^ 63 - 1 else limit) (ko := keysOnly) (co := countOnly)
    h.good h'.good looks_get looks_get hvis 0
  rw [kvRange_eq, kvRange_eq, hloop]

/-! ### The theorems -/

/-- **C36, what holds.**  A replica may crash any number of times, after any number of the disk
writes of any entry (also of an entry that is applied for the second time), and go back any
number of entries; once it is at the end of the log it answers every read as a replica that
never crashed, and has the same leases and revision counter.  Excepted are crashes between the
index of a put and the counter. -/
theorem C36_replay_partial (log : List Entry) (hl : LogOf log) (evs : List Ev) (hav : Replica.avoids log ⟨.init, 0⟩ evs = true)
    (hend : (Replica.run log evs).pos = log.length) :
    (∀ maxKey key stop limit keysOnly countOnly,
      kvRange maxKey (Replica.run log evs).node key stop limit keysOnly countOnly =
        kvRange maxKey (run log) key stop limit keysOnly countOnly) ∧
    (∀ id, (Replica.run log evs).node.leases.get id = (run log).leases.get id) ∧
    (Replica.run log evs).node.memRev = (run log).memRev := by
  obtain ⟨h, hi⟩ := inv_run hl evs _ 0 (inv_init hl) hav
  change Inv log (Replica.run log evs) h at hi
  have hh : h = log.length := by have := hi.pos; have := hi.top; omega
  have ok : Ok True (Replica.run log evs).node (meaning log) := by
    rcases hi.state with ⟨a, _⟩ | ⟨e, he, _⟩
    · rw [hh, List.take_length] at a; exact a
    · have := (List.getElem?_eq_some_iff.1 he).1
      omega
  have ok' := run_ok hl.log
  refine ⟨fun maxKey key stop limit ko co => reads_eq ok ok' maxKey key stop limit ko co, ?_, ok.mem.trans ok'.mem.symm⟩
  intro id
  have a := congrFun (congrArg Spec.leases ok.spec) id
  have b := congrFun (congrArg Spec.leases ok'.spec) id
  exact Eq.trans a b.symm

theorem exLog_of : LogOf exLog where
  log := by decide
  terms := by decide
  made := by
    intro e he
    simp only [exLog, List.mem_cons, List.not_mem_nil, or_false] at he
    rcases he with rfl | rfl | rfl | rfl | rfl | rfl | rfl
    · exact .deletes []
    · exact .put ..
    · exact .put ..
    · exact .put ..
    · exact .deletes [[97]]
    · exact .put ..
    · exact .compacts [([97], 10005), ([98], 10005)]

/-- Crashes in a lease, a put, a delete and a compaction, two of them in one entry. -/
def exEvs : List Ev :=
  [.crash 1 0, .apply, .crash 1 5, .apply, .apply, .apply, .crash 3 1, .apply, .apply, .crash 1 0, .crash 2 3,
   .apply, .apply, .apply, .apply, .apply, .crash 2 0, .apply]

example : (Replica.run exLog exEvs).pos = exLog.length ∧ Replica.avoids exLog ⟨.init, 0⟩ exEvs = true := by
  constructor <;> decide +kernel

/-- **The exception is real.**  A crash between the index of a put and the counter: the put is
counted twice. -/
theorem C36_version_false :
    ∃ log evs, LogOf log ∧ (Replica.run log evs).pos = log.length ∧
      (kvRange 4096 (Replica.run log evs).node [97] [] 0 false false).kvs = [⟨[97], [2], 10001, 10001, 2, 0⟩] ∧
      (kvRange 4096 (run log) [97] [] 0 false false).kvs = [⟨[97], [2], 10001, 10001, 1, 0⟩] :=
  ⟨[⟨1, 1, ⟨[], [.put [97] false 0 false [2]], []⟩⟩], [.crash 2 0, .apply],
   ⟨by decide, by decide, by intro e he; rw [List.mem_singleton] at he; subst he; exact .put ..⟩,
   by decide +kernel, by decide +kernel, by decide +kernel⟩

/-- After such a crash a compaction removes the record of the key that is in use, and the replica
answers with an entry without key and value. -/
theorem C36_lost_false :
    ∃ log evs, LogOf log ∧ (Replica.run log evs).pos = log.length ∧
      (kvRange 4096 (Replica.run log evs).node [97] [] 0 false false).kvs = [⟨[], [], 0, 0, 0, 0⟩] ∧
      (kvRange 4096 (run log) [97] [] 0 false false).kvs = [⟨[97], [2], 10001, 10001, 1, 0⟩] :=
  ⟨[⟨1, 1, ⟨[], [.put [97] false 0 false [2]], []⟩⟩, ⟨1, 2, ⟨[], [.compact [97] 10002], []⟩⟩],
   [.crash 2 0, .apply, .apply],
   ⟨by decide, by decide, by
      intro e he
      simp only [List.mem_cons, List.not_mem_nil, or_false] at he
      rcases he with rfl | rfl
      · exact .put ..
      · exact .compacts [([97], 10002)]⟩,
   by decide +kernel, by decide +kernel, by decide +kernel⟩

/-! ### Without compactions nothing but the version is affected -/

/-- A replica that crashes at most once in each entry, anywhere, and applies the entry again. -/
def runOnce (ps : List (Entry × Option Nat)) : Node :=
  ps.foldl (fun s p => (match p.2 with | none => s | some n => s.crash p.1 n).apply p.1) .init

def Kv.bare (x : Kv) : Kv := { x with version := 0 }

def Item.bare (x : Item) : Item := { x with version := 0 }

/-- Equal but for the versions. -/
structure Alike (S T : Spec) : Prop where
  map : ∀ k, (S.map k).map Item.bare = (T.map k).map Item.bare
  leases : S.leases = T.leases
  rev : S.rev = T.rev

theorem Alike.refl (S : Spec) : Alike S S := ⟨fun _ => rfl, rfl, rfl⟩

theorem Alike.trans {S T R : Spec} (h : Alike S T) (h' : Alike T R) : Alike S R :=
  ⟨fun k => (h.map k).trans (h'.map k), h.leases.trans h'.leases, h.rev.trans h'.rev⟩

theorem Alike.fields {S T : Spec} (h : Alike S T) (k : Bytes) :
    (S.map k).map (·.lease) = (T.map k).map (·.lease) ∧ (S.map k).map (·.value) = (T.map k).map (·.value) ∧
      (S.map k).map (·.create) = (T.map k).map (·.create) := by
  have := h.map k
  cases h1 : S.map k with
  | none => cases h2 : T.map k with
    | none => simp
    | some b => rw [h1, h2] at this; cases this
  | some a => cases h2 : T.map k with
    | none => rw [h1, h2] at this; cases this
    | some b =>
      rw [h1, h2] at this
      simp only [Option.map_some, Option.some.injEq, Item.bare, Item.mk.injEq] at this ⊢
      exact ⟨this.2.2.2.2, this.1, this.2.1⟩

theorem Alike.op {S T : Spec} (h : Alike S T) (m : Int) (o : Op) : Alike (S.op m o) (T.op m o) := by
  cases o with
  | compact => exact h
  | delete k =>
    refine ⟨fun k' => ?_, h.leases, h.rev⟩
    simp only [Spec.op, Spec.set]
    split
    · rfl
    · exact h.map k'
  | put k il l iv v =>
    obtain ⟨h1, h2, h3⟩ := h.fields k
    simp only [Spec.op, h1, h2, h3, h.leases]
    generalize (if il = true then _ else _ : Int) = L
    by_cases hb : 0 < L ∧ T.leases L = none
    · rw [if_pos hb, if_pos hb]; exact h
    · rw [if_neg hb, if_neg hb]
      refine ⟨fun k' => ?_, h.leases, h.rev⟩
      simp only [Spec.set]
      split
      · rfl
      · exact h.map k'

theorem Alike.ops {S T : Spec} (h : Alike S T) (m : Int) (os : List Op) :
    Alike (os.foldl (Spec.op m) S) (os.foldl (Spec.op m) T) := by
  induction os generalizing S T with
  | nil => exact h
  | cons o os ih => exact ih (h.op m o)

theorem Alike.lease {S T : Spec} (h : Alike S T) (os : List LeaseOp) :
    Alike (os.foldl Spec.lease S) (os.foldl Spec.lease T) := by
  induction os generalizing S T with
  | nil => exact h
  | cons o os ih =>
    refine ih ?_
    cases o <;> exact ⟨h.map, by simp only [Spec.lease, h.leases], h.rev⟩

theorem Alike.entry {S T : Spec} (h : Alike S T) (e : Entry) : Alike (S.entry e) (T.entry e) := by
  have := (h.lease e.inc.leases).ops (S.rev + 1) e.inc.ops
  have hrev := h.rev
  refine ⟨?_, ?_, ?_⟩
  · rw [hrev] at this
    intro k
    have := this.map k
    simp only [Spec.entry, hrev]
    exact this
  · rw [hrev] at this
    have := this.leases
    simp only [Spec.entry, hrev]
    exact this
  · simp only [Spec.entry, hrev]

def putL (S : Spec) (k : Bytes) (il : Bool) (l : Int) : Int := if il then ((S.map k).map (·.lease)).getD 0 else l
def putV (S : Spec) (k : Bytes) (iv : Bool) (v : Bytes) : Bytes := if iv then ((S.map k).map (·.value)).getD [] else v

theorem op_put (S : Spec) (m : Int) (k : Bytes) (il : Bool) (l : Int) (iv : Bool) (v : Bytes) :
    S.op m (.put k il l iv v) = if 0 < putL S k il l ∧ S.leases (putL S k il l) = none then S
      else S.set k (some ⟨putV S k iv v, ((S.map k).map (·.create)).getD m, m, ((S.map k).map (·.version)).getD 0 + 1,
        putL S k il l⟩) := rfl

/-- The same put twice. -/
theorem alike_twice (S : Spec) (m : Int) (k : Bytes) (il : Bool) (l : Int) (iv : Bool) (v : Bytes) :
    Alike ((S.op m (.put k il l iv v)).op m (.put k il l iv v)) (S.op m (.put k il l iv v)) := by
  by_cases hb : 0 < putL S k il l ∧ S.leases (putL S k il l) = none
  · have : S.op m (.put k il l iv v) = S := by rw [op_put, if_pos hb]
    rw [this, this]
    exact Alike.refl S
  · have : S.op m (.put k il l iv v) = S.set k (some ⟨putV S k iv v, ((S.map k).map (·.create)).getD m, m,
        ((S.map k).map (·.version)).getD 0 + 1, putL S k il l⟩) := by rw [op_put, if_neg hb]
    rw [this]
    generalize hT : S.set k _ = T
    have hk : T.map k = some ⟨putV S k iv v, ((S.map k).map (·.create)).getD m, m,
        ((S.map k).map (·.version)).getD 0 + 1, putL S k il l⟩ := by rw [← hT]; simp [Spec.set]
    have h1 : putL T k il l = putL S k il l := by
      unfold putL
      rw [hk]
      cases il
      · rfl
      · simp [putL]
    have h2 : putV T k iv v = putV S k iv v := by
      unfold putV
      rw [hk]
      cases iv
      · rfl
      · simp [putV]
    have h3 : T.leases = S.leases := by rw [← hT]; rfl
    rw [op_put, h1, h2, h3, if_neg hb]
    refine ⟨fun k' => ?_, rfl, rfl⟩
    simp only [Spec.set]
    split
    · next e =>
      subst e
      rw [hk]; rfl
    · rfl

/-- A crash after the index of a put, and the put again. -/
theorem put_again {S : Spec} {e : Entry} (h : Ok False s S) (ha : s.applied < e.index) {k : Bytes} {il : Bool} {l : Int}
    {iv : Bool} {v : Bytes} (ho : e.inc.ops = [.put k il l iv v]) {t : Node}
    (ht : (s :: s.writes e)[e.inc.leases.length + 2]? = some t) :
    ∃ S', Ok False (t.restart.apply e) S' ∧ Alike S' (S.entry e) ∧ (t.restart.apply e).applied = e.index := by
  have hl := (leases_spec e.inc.leases s S.rev).2
  have hls := (leases_spec e.inc.leases s S.rev).1
  generalize hs₁ : e.inc.leases.foldl leaseApply s = s₁ at hl hls
  rw [h.spec] at hls
  have hmem : s₁.memRev = some S.rev := hl.memRev.trans h.mem
  have hmain : mainOf s₁ none = S.rev + 1 := by simp [mainOf, hmem, nextId]
  obtain ⟨dr, dm, di, drv, dk⟩ := drawRev_spec s₁ none 1 (fun m hm => by cases hm)
  rw [hmain] at dr dm
  generalize hs₂ : (drawRev s₁ none 1).1 = s₂ at dm di drv dk
  have hg₂ : Good False (Below (S.rev + 1) 1) s₂ := h.good.congr (di.trans hl.index) (drv.trans hl.revs)
  have hrun : opsRun s₁ none 1 e.inc.ops = ((putApply s₂ k ⟨S.rev + 1, 1⟩ il l iv v).1,
      (putApply s₂ k ⟨S.rev + 1, 1⟩ il l iv v).1.getLastD s₂, some (S.rev + 1)) := by
    rw [ho]
    simp only [opsRun, List.append_nil]
    rw [dr, hs₂]
  -- the state the crash leaves
  have hlast : t = (putApply s₂ k ⟨S.rev + 1, 1⟩ il l iv v).1.getLastD s₂ ∧
      (putApply s₂ k ⟨S.rev + 1, 1⟩ il l iv v).1 ≠ [] := by
    rw [List.getElem?_cons_succ] at ht
    unfold Node.writes at ht
    simp only [leasesRun_last, hs₁, hrun, List.append_assoc] at ht
    rw [List.getElem?_append_right (by rw [leasesRun_length]; omega), leasesRun_length] at ht
    have : e.inc.leases.length + 1 - e.inc.leases.length = 1 := by omega
    rw [this] at ht
    simp only [putApply] at ht ⊢
    generalize (if il = true then _ else _ : Int) = L at ht ⊢
    by_cases hb : 0 < L ∧ s₂.leases.get L = none
    · simp only [if_pos hb] at ht
      simp at ht
    · simp only [if_neg hb] at ht ⊢
      simp at ht
      exact ⟨by rw [← ht]; rfl, by simp⟩
  obtain ⟨hlast, hne⟩ := hlast
  have hplus : Good False (Plus (Below (S.rev + 1) 1) ⟨S.rev + 1, 1⟩ k) s₂ := hg₂.mono fun r k' hu => .inl hu
  have hop : (⟨S.rev + 1, 1⟩ : Rev) ≠ ⟨0, 0⟩ := by
    intro e; have := congrArg Rev.sub e; simp at this
  have huq : ∀ k', Plus (Below (S.rev + 1) 1) ⟨S.rev + 1, 1⟩ k ⟨S.rev + 1, 1⟩ k' → k' = k := by
    rintro k' (hu | ⟨_, hu⟩)
    · exact absurd hu (not_below _)
    · exact hu
  obtain ⟨g1, p1⟩ := put_good (il := il) (l := l) (iv := iv) (v := v) hplus hop (.inr ⟨rfl, rfl⟩) huq (fun hf => hf.elim) S.rev
  rw [← hlast] at g1 p1
  have hkt : Keeps s₂ t := by
    rw [hlast, List.getLastD_eq_getLast?]
    cases hh : (putApply s₂ k ⟨S.rev + 1, 1⟩ il l iv v).1.getLast? with
    | none => exact Keeps.refl _
    | some t => exact putApply_keeps _ _ _ _ _ _ _ t (List.mem_of_getLast? hh)
  have hsp₂ : specOf s₂ S.rev = e.inc.leases.foldl Spec.lease S := by
    rw [specOf_congr di drv dk.leases, hls]
  rw [hsp₂] at p1
  -- the second time
  have hk1 := (leases_spec e.inc.leases t.restart S.rev).2
  have hlagain : (e.inc.leases.foldl leaseApply t.restart).leases = s₁.leases := by
    have := leases_again e.inc.leases [] s t.restart (by rw [hs₁]; exact hkt.leases.trans dk.leases)
    rw [List.append_nil, hs₁] at this
    exact this
  generalize hu₁ : e.inc.leases.foldl leaseApply t.restart = u₁ at hk1 hlagain
  have hdisk : t.diskRev = s.diskRev := hkt.diskRev.trans (dk.diskRev.trans hl.diskRev)
  have humem : u₁.memRev = some S.rev := by
    rw [hk1.memRev]
    change initId 10000 t.diskRev = _
    rw [hdisk]; exact h.disk
  have humain : mainOf u₁ none = S.rev + 1 := by simp [mainOf, humem, nextId]
  obtain ⟨er, em, ei, erv, ek⟩ := drawRev_spec u₁ none 1 (fun m hm => by cases hm)
  rw [humain] at er em
  generalize hu₂ : (drawRev u₁ none 1).1 = u₂ at em ei erv ek
  have hug : Good False (Plus (Below (S.rev + 1) 1) ⟨S.rev + 1, 1⟩ k) u₂ :=
    g1.congr (ei.trans hk1.index) (erv.trans hk1.revs)
  obtain ⟨g2, p2⟩ := put_good (il := il) (l := l) (iv := iv) (v := v) hug hop (.inr ⟨rfl, rfl⟩) huq (fun hf => hf.elim) S.rev
  have hsu : specOf u₂ S.rev = specOf t S.rev := by
    refine (specOf_congr (s := t) (ei.trans hk1.index) (erv.trans hk1.revs) ?_ S.rev)
    rw [ek.leases, hlagain, hkt.leases, dk.leases]
  rw [hsu, p1] at p2
  have hurun : opsRun u₁ none 1 e.inc.ops = ((putApply u₂ k ⟨S.rev + 1, 1⟩ il l iv v).1,
      (putApply u₂ k ⟨S.rev + 1, 1⟩ il l iv v).1.getLastD u₂, some (S.rev + 1)) := by
    rw [ho]
    simp only [opsRun, List.append_nil]
    rw [er, hu₂]
  have hku : Keeps u₂ ((putApply u₂ k ⟨S.rev + 1, 1⟩ il l iv v).1.getLastD u₂) := by
    rw [List.getLastD_eq_getLast?]
    cases hh : (putApply u₂ k ⟨S.rev + 1, 1⟩ il l iv v).1.getLast? with
    | none => exact Keeps.refl _
    | some t => exact putApply_keeps _ _ _ _ _ _ _ t (List.mem_of_getLast? hh)
  have happ : t.restart.applied = s.applied := hkt.applied.trans (dk.applied.trans hl.applied)
  have hno : t.restart.skips e = false := by
    have h1 : ¬ e.index ≤ t.restart.applied := by rw [happ]; omega
    simp [Node.skips, h1, Inc.isEmpty, ho]
  have hres : t.restart.apply e = finish ((putApply u₂ k ⟨S.rev + 1, 1⟩ il l iv v).1.getLastD u₂) (some (S.rev + 1))
      e.inc.leaseIds e.term e.index := by
    unfold Node.apply
    rw [hno]
    simp only [Bool.false_eq_true, if_false, leasesRun_last, hu₁, hurun]
  have hent : S.entry e = { (e.inc.leases.foldl Spec.lease S).op (S.rev + 1) (.put k il l iv v) with rev := S.rev + 1 } := by
    simp [Spec.entry, ho, Op.draws]
  generalize hQ : e.inc.leases.foldl Spec.lease S = Q at p2 hent
  refine ⟨{ (Q.op (S.rev + 1) (.put k il l iv v)).op (S.rev + 1) (.put k il l iv v) with rev := S.rev + 1 }, ?_, ?_, ?_⟩
  · rw [hres]
    have hp := h.pos
    refine ⟨?_, ?_, ?_, ?_, ?_⟩
    · refine Good.congr (g2.mono fun r k' hu => ?_) rfl rfl
      obtain ⟨a, b⟩ := below_plus (by omega) r k' hu
      exact ⟨a, by simp only; omega⟩
    · simp only [finish, hku.memRev, em, raiseId, Int.max_self]
    · have : S.rev + 1 ≠ 0 := by omega
      simp [finish, initId, this]
    · simp only; omega
    · refine Spec.ext' ?_ ?_ rfl
      · have := congrArg Spec.map p2
        exact this
      · have := congrArg Spec.leases p2
        exact this
  · rw [hent]
    have := alike_twice Q (S.rev + 1) k il l iv v
    exact ⟨this.map, this.leases, rfl⟩
  · rw [hres]; rfl

theorem once_step {S : Spec} {e : Entry} (h : Ok False s S) (ha : s.applied < e.index) (hg : Generated e.inc.ops)
    (hd : ∀ o ∈ e.inc.ops, o.draws = true) (c : Option Nat) :
    ∃ S', Ok False ((match c with | none => s | some n => s.crash e n).apply e) S' ∧ Alike S' (S.entry e) ∧
      ((match c with | none => s | some n => s.crash e n).apply e).applied ≤ e.index := by
  have hN : (e.inc.ops.any fun o => !o.draws) = true → False := by
    intro hh
    obtain ⟨o, ho, h'⟩ := List.any_eq_true.1 hh
    rw [hd o ho] at h'; cases h'
  have hmid := h.mid ha hg hN
  have fin : ∀ t, Mid False S e t →
      ∃ S', Ok False (t.apply e) S' ∧ Alike S' (S.entry e) ∧ (t.apply e).applied ≤ e.index := by
    intro t ht
    obtain ⟨a, b⟩ := ht.apply
    refine ⟨_, a, Alike.refl _, ?_⟩
    rcases b with ⟨_, b⟩ | ⟨b, _⟩
    · rw [b]; exact Int.le_of_lt ht.applied
    · omega
  cases c with
  | none => exact fin s hmid
  | some n =>
    simp only
    cases hp : afterPut e n with
    | false =>
      rcases hmid.crash n hp with ⟨a, _⟩ | a
      · exact fin _ a
      · have : (s.crash e n).apply e = s.crash e n := by
          unfold Node.apply
          rw [if_pos (by simp [Node.skips, a.applied, a.term])]
        rw [this]
        exact ⟨_, a.ok, Alike.refl _, Int.le_of_eq a.applied⟩
    | true =>
      unfold afterPut at hp
      split at hp
      · next k il l iv v ho =>
        have hn : n = e.inc.leases.length + 2 := by simpa using hp
        have hno : s.skips e = false := by
          have h1 : ¬ e.index ≤ s.applied := by omega
          simp [Node.skips, h1, Inc.isEmpty, ho]
        unfold Node.crash
        rw [hno, hn]
        simp only [Bool.false_eq_true, if_false]
        cases ht : (s :: s.writes e)[e.inc.leases.length + 2]? with
        | none => exact fin _ hmid.restart
        | some t =>
          obtain ⟨S', a, b, c⟩ := put_again h ha ho ht
          exact ⟨S', a, b, Int.le_of_eq c⟩
      · cases hp

theorem once_run (ps : List (Entry × Option Nat)) {S T : Spec} (h : Ok False s S) (hal : Alike S T)
    (ha : ∀ p ∈ ps, s.applied < p.1.index) (hp : (ps.map (·.1)).Pairwise fun a b => a.index < b.index)
    (hg : ∀ p ∈ ps, Generated p.1.inc.ops) (hd : ∀ p ∈ ps, ∀ o ∈ p.1.inc.ops, o.draws = true) :
    ∃ S', Ok False (ps.foldl (fun s p => (match p.2 with | none => s | some n => s.crash p.1 n).apply p.1) s) S' ∧
      Alike S' ((ps.map (·.1)).foldl Spec.entry T) := by
  induction ps generalizing s S T with
  | nil => exact ⟨S, h, hal⟩
  | cons p ps ih =>
    have hp' := List.pairwise_cons.1 hp
    obtain ⟨S', a, b, c⟩ := once_step h (ha p (List.mem_cons_self ..)) (hg p (List.mem_cons_self ..))
      (hd p (List.mem_cons_self ..)) p.2
    refine ih a (b.trans (hal.entry p.1)) ?_ hp'.2 (fun q hq => hg q (List.mem_cons_of_mem _ hq))
      fun q hq => hd q (List.mem_cons_of_mem _ hq)
    intro q hq
    exact Int.lt_of_le_of_lt c (hp'.1 q.1 (List.mem_map_of_mem hq))

theorem lists_bare {m m' : Bytes → Option Item} {P : Bytes → Prop} {l l' : List (Bytes × Item)} (h : Lists m P l)
    (h' : Lists m' P l') (hm : ∀ k, (m k).map Item.bare = (m' k).map Item.bare) :
    l.map (fun e => (e.1, e.2.bare)) = l'.map fun e => (e.1, e.2.bare) := by
  have key : ∀ {m : Bytes → Option Item} {l : List (Bytes × Item)}, Lists m P l →
      Lists (fun k => (m k).map Item.bare) P (l.map fun e => (e.1, e.2.bare)) := by
    intro m l h
    refine ⟨?_, ?_⟩
    · rw [List.pairwise_map]; exact h.asc
    · intro k x
      simp only [List.mem_map, Prod.mk.injEq]
      constructor
      · rintro ⟨⟨k', y⟩, hmem, rfl, rfl⟩
        obtain ⟨a, b⟩ := (h.mem k' y).1 hmem
        exact ⟨a, by rw [b]; rfl⟩
      · rintro ⟨hp, hx⟩
        obtain ⟨y, hy, rfl⟩ := Option.map_eq_some_iff.1 hx
        exact ⟨(k, y), (h.mem k y).2 ⟨hp, hy⟩, rfl, rfl⟩
  have a := key h
  have b := key h'
  have : (fun k => (m k).map Item.bare) = fun k => (m' k).map Item.bare := funext hm
  rw [this] at a
  exact a.unique b

/-- **C36, without compactions.**  Puts, deletes and leases, at most one crash in each entry,
anywhere: every read gives the same but for the version of keys. -/
theorem C36_once_partial (ps : List (Entry × Option Nat)) (hl : Log (ps.map (·.1)))
    (hg : ∀ p ∈ ps, Generated p.1.inc.ops) (hd : ∀ p ∈ ps, ∀ o ∈ p.1.inc.ops, o.draws = true)
    (maxKey : Nat) (key stop : Bytes) (limit : Int) (keysOnly : Bool) (hlim : 0 < limit) :
    let a := kvRange maxKey (runOnce ps) key stop limit keysOnly false
    let b := kvRange maxKey (run (ps.map (·.1))) key stop limit keysOnly false
    a.kvs.map Kv.bare = b.kvs.map Kv.bare ∧ a.count = b.count ∧ a.more = b.more ∧
      (∀ id, (runOnce ps).leases.get id = (run (ps.map (·.1))).leases.get id) ∧
      (runOnce ps).memRev = (run (ps.map (·.1))).memRev := by
  obtain ⟨S, hS, hal⟩ := once_run ps init_ok (Alike.refl _) (fun p hp => hl.pos _ (List.mem_map_of_mem hp)) hl.asc hg hd
  change Alike S (meaning _) at hal
  change Ok False (runOnce ps) S at hS
  have hR := run_ok hl
  have e1 : abs (runOnce ps) = S.map := by have := congrArg Spec.map hS.spec; exact this
  have hv := lists_bare (visible_lists (s := runOnce ps) (maxKey := maxKey) (key := key) (stop := stop))
    (visible_lists (s := run (ps.map (·.1))) (maxKey := maxKey) (key := key) (stop := stop))
    (by rw [e1, abs_run hl]; exact hal.map)
  have hlim' : (if limit = 0 then 2 ^ 63 - 1 else limit) = limit := by rw [if_neg]; omega
  have loop : ∀ {N : Prop} {U : Rev → Bytes → Prop} {s : Node}, Good N U s →
      kvRange maxKey s key stop limit keysOnly false =
        ⟨((visible s (looks maxKey s key stop)).take limit.toNat).map (answer keysOnly),
          min limit.toNat (visible s (looks maxKey s key stop)).length,
          decide (limit < ((visible s (looks maxKey s key stop)).length : Int))⟩ := by
    intro N U s h
    rw [kvRange_eq, hlim']
    rcases rangeLoop_spec (limit := limit) (ko := keysOnly) h (looks maxKey s key stop) looks_get 0 with e | e
    · rw [e]
      have hn : (limit - (0 : Nat)).toNat = limit.toNat := by omega
      rw [hn]
      simp
    · simp at e; omega
  have hlen : (visible (runOnce ps) (looks maxKey (runOnce ps) key stop)).length =
      (visible (run (ps.map (·.1))) (looks maxKey (run (ps.map (·.1))) key stop)).length := by
    have := congrArg List.length hv
    simpa using this
  intro a b
  have ha : a = _ := loop hS.good
  have hb : b = _ := loop hR.good
  rw [ha, hb]
  refine ⟨?_, ?_, ?_, ?_, ?_⟩
  · have hans : ∀ l : List (Bytes × Item), ((l.take limit.toNat).map (answer keysOnly)).map Kv.bare =
        ((l.map fun e => (e.1, e.2.bare)).take limit.toNat).map fun e => (answer keysOnly e).bare := by
      intro l
      rw [← List.map_take, List.map_map, List.map_map]
      rfl
    refine (hans _).trans (Eq.trans ?_ (hans _).symm)
    rw [hv]
  · simp only [hlen]
  · simp only [hlen]
  · intro id
    have x := congrFun (congrArg Spec.leases hS.spec) id
    have y := congrFun (congrArg Spec.leases hR.spec) id
    have z := congrFun hal.leases id
    exact Eq.trans (Eq.trans x z) y.symm
  · rw [hS.mem, hR.mem, hal.rev]

example : (∀ p ∈ (exLog.take 6).map (fun e => (e, some 2)), Generated p.1.inc.ops) ∧
    ∀ p ∈ (exLog.take 6).map (fun e => (e, some 2)), ∀ o ∈ p.1.inc.ops, o.draws = true := by
  refine ⟨?_, by decide⟩
  intro p hp
  obtain ⟨e, he, rfl⟩ := List.mem_map.1 hp
  exact exLog_of.made e (List.mem_of_mem_take he)

/-! ### Snapshots -/

theorem meaning_rev (es : List Entry) (S : Spec) : S.rev ≤ (es.foldl Spec.entry S).rev := by
  induction es generalizing S with
  | nil => exact Int.le_refl _
  | cons e es ih =>
    refine Int.le_trans ?_ (ih (S.entry e))
    have : (S.entry e).rev = if e.inc.ops.any Op.draws then S.rev + 1 else S.rev := rfl
    rw [this]; split <;> omega

theorem meaning_drawn (es : List Entry) (S : Spec) (h : ∃ e ∈ es, ∃ op ∈ e.inc.ops, op.draws = true) :
    S.rev < (es.foldl Spec.entry S).rev := by
  induction es generalizing S with
  | nil => obtain ⟨e, he, _⟩ := h; cases he
  | cons e es ih =>
    have hrev : (S.entry e).rev = if e.inc.ops.any Op.draws then S.rev + 1 else S.rev := rfl
    obtain ⟨e', he, op, ho, hd⟩ := h
    rcases List.mem_cons.1 he with rfl | he
    · have : e'.inc.ops.any Op.draws = true := List.any_eq_true.2 ⟨op, ho, hd⟩
      rw [this] at hrev
      have := meaning_rev es (S.entry e')
      simp only [if_true] at hrev
      rw [List.foldl_cons]
      omega
    · refine Int.lt_of_le_of_lt ?_ (ih (S.entry e) ⟨e', he, op, ho, hd⟩)
      rw [hrev]; split <;> omega

/-- **C59, what holds.**  A replica that installs a snapshot taken after at least one put or
delete, and applies the rest of the log, answers every read as one that applied the whole log. -/
theorem C59_install_partial (es fs : List Entry) (h : Log (es ++ fs)) (hd : ∃ e ∈ es, ∃ op ∈ e.inc.ops, op.draws = true) :
    (∀ maxKey key stop limit keysOnly countOnly,
      kvRange maxKey (fs.foldl Node.apply (run es).install) key stop limit keysOnly countOnly =
        kvRange maxKey (run (es ++ fs)) key stop limit keysOnly countOnly) ∧
    (∀ id, (fs.foldl Node.apply (run es).install).leases.get id = (run (es ++ fs)).leases.get id) ∧
    (fs.foldl Node.apply (run es).install).memRev = (run (es ++ fs)).memRev := by
  have h' : Log es := ⟨(List.pairwise_append.1 h.asc).1, fun x hx => h.pos x (List.mem_append_left _ hx)⟩
  have ok := run_ok h'
  have hlt : 10000 < (meaning es).rev := meaning_drawn es Spec.init hd
  have hdisk : (run es).diskRev = some (meaning es).rev := by
    have := ok.disk
    cases hr : (run es).diskRev with
    | none => rw [hr] at this; simp [initId] at this; omega
    | some v =>
      rw [hr] at this
      simp only [initId] at this
      split at this
      · simp at this; omega
      · exact this
  have oki : Ok True (run es).install (meaning es) :=
    ⟨ok.good.congr rfl rfl, hdisk, ok.disk, ok.pos, (specOf_congr rfl rfl rfl _).trans ok.spec⟩
  have a : Ok True (fs.foldl Node.apply (run es).install) (fs.foldl Spec.entry (meaning es)) :=
    fold_ok fs oki (run_applied h) (List.pairwise_append.1 h.asc).2.1 fun _ _ _ => trivial
  have hm : fs.foldl Spec.entry (meaning es) = meaning (es ++ fs) := by simp [meaning, List.foldl_append]
  rw [hm] at a
  have b := run_ok h
  refine ⟨fun maxKey key stop limit ko co => reads_eq a b maxKey key stop limit ko co, ?_, a.mem.trans b.mem.symm⟩
  intro id
  exact Eq.trans (congrFun (congrArg Spec.leases a.spec) id) (congrFun (congrArg Spec.leases b.spec) id).symm

example : Log (exLog.take 3 ++ exLog.drop 3) ∧ ∃ e ∈ exLog.take 3, ∃ op ∈ e.inc.ops, op.draws = true := by
  constructor <;> decide

/-- A snapshot taken before the first put holds no revision counter, and installing it does not
set the initial one: the replica gives the next put another revision than the others. -/
theorem C59_install_false :
    ∃ es fs, Log (es ++ fs) ∧
      (kvRange 4096 (fs.foldl Node.apply (run es).install) [97] [] 0 false false).kvs = [⟨[97], [2], 1001, 1001, 1, 0⟩] ∧
      (kvRange 4096 (run (es ++ fs)) [97] [] 0 false false).kvs = [⟨[97], [2], 10001, 10001, 1, 0⟩] :=
  ⟨[⟨1, 1, ⟨[.put 90001 ⟨10, 0, 0⟩], [], [90001]⟩⟩], [⟨1, 2, ⟨[], [.put [97] false 0 false [2]], []⟩⟩],
   by decide, by decide +kernel, by decide +kernel⟩

end Verif.CoorKv
