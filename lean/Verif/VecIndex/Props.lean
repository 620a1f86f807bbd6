import Verif.VecIndex.Free

/-!
# C64: the index of a vector region and its data

Properties of all runs of the model of `Model.lean`: any entries in the log, any interleaving of the
apply thread with the tasks that build, load, switch and save, crashes anywhere.
-/

namespace Verif.VecIndex

/-! ### The data -/

/-- C64, for every run: the data holds, for every id, the vector of the last write that names it, among
the entries written so far; entries that were refused for their epoch count for nothing, and entries
applied again after a restart change nothing. -/
theorem C64_data (g : Cfg) (evs : List Ev) (i : Nat) :
    held (run g evs).data i =
      (lastWrite (writes ((run g evs).log.take (run g evs).dataLog)) i).toList :=
  (Basic.run g evs).dataOk i

/-- C64, for every run: an index in memory or in a file holds no vector that no entry of the log gave
for that id.  (With what a refused entry gave it may be wrong: `C64_epoch_false`.) -/
theorem C64_no_invention (g : Cfg) (evs : List Ev) (x : Idx) (i v : Nat)
    (hx : x ∈ (run g evs).idxs ∨ (run g evs).snap = some x) (h : v ∈ held x.content i) :
    ∃ e ∈ (run g evs).log, (i, v) ∈ e.cmd.vecs := by
  have hg := Given.run g evs
  refine List.mem_flatMap.1 ?_
  rcases hx with hx | hx
  · obtain ⟨k, hk⟩ := List.getElem?_of_mem hx
    exact hg.idxs k x hk _ (mem_held.1 h)
  · exact hg.snap x hx _ (mem_held.1 h)

/-! ### The apply thread is not stopped -/

/-- C64, for every run: if an entry is being applied, the apply thread can take a step, unless it waits
while an index is being switched. -/
theorem C64_apply_goes_on (g : Cfg) (evs : List Ev) (h : (run g evs).ph ≠ .idle) :
    (∃ ev ∈ [Ev.check, .pass, .take, .call, .mark, .done],
      (step g (run g evs) ev).ph ≠ (run g evs).ph) ∨
    ((run g evs).switching = true ∧ ∃ p, (run g evs).ph = .wait p) := by
  have hb := Basic.run g evs
  generalize run g evs = s at h hb
  have hp := hb.phB
  unfold PhB at hp
  cases hph : s.ph with
  | idle => exact absurd hph h
  | «at» p go =>
    rw [hph] at hp
    simp only at hp
    left
    by_cases hlt : p < s.calls.length
    · refine ⟨.check, by simp, ?_⟩
      unfold step
      rw [hph]
      simp only [List.getElem?_eq_getElem hlt]
      have key : ∀ ok : Bool, (if ok = true then Ph.wait p else Ph.at (p + 1) ok) ≠ Ph.at p go := by
        intro ok; cases ok <;> simp
      exact key _
    · refine ⟨.done, by simp, ?_⟩
      have hl : s.applied < s.log.length := Nat.lt_of_lt_of_le hp.1 hb.logLe
      have he : s.entry = some s.log[s.applied] := List.getElem?_eq_getElem hl
      unfold step
      rw [hph, he]
      simp only [if_neg hlt]
      simp
  | wait p =>
    rw [hph] at hp
    by_cases ho : s.own = none
    · left
      refine ⟨.pass, by simp, ?_⟩
      unfold step
      rw [hph]
      simp [ho]
    · cases hs : s.switching with
      | true => exact .inr ⟨rfl, p, rfl⟩
      | false =>
        left
        refine ⟨.pass, by simp, ?_⟩
        unfold step
        rw [hph]
        simp [ho, hs]
  | passed p =>
    left
    refine ⟨.take, by simp, ?_⟩
    unfold step
    rw [hph]
    cases s.own <;> simp
  | got p k =>
    rw [hph] at hp
    simp only at hp
    left
    refine ⟨.call, by simp, ?_⟩
    unfold step
    rw [hph]
    simp only [List.getElem?_eq_getElem hp.2.1, List.getElem?_eq_getElem hp.2.2]
    simp
  | did p ok =>
    rw [hph] at hp
    simp only at hp
    left
    refine ⟨.mark, by simp, ?_⟩
    unfold step
    rw [hph]
    simp only [List.getElem?_eq_getElem hp.2]
    simp

/-- C64, for every run: a switch that has been announced can be ended by the task that announced it,
whatever the apply thread does. -/
theorem C64_switch_ends (g : Cfg) (evs : List Ev) (h : (run g evs).switching = true) :
    ∃ more, more.length ≤ 3 ∧ (run g (evs ++ more)).switching = false ∧
      (run g (evs ++ more)).ph = (run g evs).ph := by
  have hb := Basic.run g evs
  obtain ⟨t, ⟨k, ph⟩, ht, hph⟩ := hb.sw h
  have hk : k < (run g evs).idxs.length := hb.tIdx t _ ht
  have hx := List.getElem?_eq_getElem hk
  have happ : ∀ more, run g (evs ++ more) = more.foldl (step g) (run g evs) := by
    intro more; unfold run; rw [List.foldl_append]
  generalize run g evs = s at *
  have htl : t < s.tasks.length := (List.getElem?_eq_some_iff.1 ht).1
  have hoff : ∀ s' : St, s'.tasks[t]? = some { idx := k, ph := .swapped } →
      (step g s' (.off t)).switching = false ∧ (step g s' (.off t)).ph = s'.ph := by
    intro s' h'
    unfold step
    simp only [h']
    exact ⟨trivial, trivial⟩
  have hswap : ∀ s' : St, s'.tasks[t]? = some { idx := k, ph := .last } → k < s'.idxs.length →
      (step g s' (.swap t)).tasks[t]? = some { idx := k, ph := .swapped } ∧
      (step g s' (.swap t)).ph = s'.ph := by
    intro s' h' hk'
    unfold step
    simp only [h', List.getElem?_eq_getElem hk']
    exact ⟨List.getElem?_set_self (List.getElem?_eq_some_iff.1 h').1, trivial⟩
  have hrep : ∀ s' : St, s'.tasks[t]? = some { idx := k, ph := .on } → k < s'.idxs.length →
      (step g s' (.replay t)).tasks[t]? = some { idx := k, ph := .last } ∧
      (step g s' (.replay t)).ph = s'.ph ∧ k < (step g s' (.replay t)).idxs.length := by
    intro s' h' hk'
    unfold step
    simp only [h', List.getElem?_eq_getElem hk', List.length_set]
    exact ⟨List.getElem?_set_self (List.getElem?_eq_some_iff.1 h').1, trivial, hk'⟩
  simp only at hph
  rcases hph with hph | hph | hph
  · subst hph
    refine ⟨[.replay t, .swap t, .off t], by simp, ?_⟩
    rw [happ]
    simp only [List.foldl_cons, List.foldl_nil]
    obtain ⟨h1, h2, h3⟩ := hrep s ht hk
    obtain ⟨h4, h5⟩ := hswap _ h1 h3
    obtain ⟨h6, h7⟩ := hoff _ h4
    exact ⟨h6, by rw [h7, h5, h2]⟩
  · subst hph
    refine ⟨[.swap t, .off t], by simp, ?_⟩
    rw [happ]
    simp only [List.foldl_cons, List.foldl_nil]
    obtain ⟨h4, h5⟩ := hswap s ht hk
    obtain ⟨h6, h7⟩ := hoff _ h4
    exact ⟨h6, by rw [h7, h5]⟩
  · subst hph
    refine ⟨[.off t], by simp, ?_⟩
    rw [happ]
    simp only [List.foldl_cons, List.foldl_nil]
    exact hoff s ht

/-! ### The index -/

theorem pos_ge (s : St) : off s.log s.applied ≤ s.pos := by
  unfold St.pos; split <;> omega

theorem front_ge (s : St) : off s.log s.applied ≤ s.front := by
  unfold St.front
  split
  · exact pos_ge s
  · next h => exact off_mono _ (by have := fun h' => h (.inl h'); omega)

theorem names_iff {e : Entry} {i : Nat} : e.names i = false ↔ ∀ o ∈ e.ops, i ∉ o.ids := by
  unfold Entry.names
  rw [List.any_eq_false]
  simp

/-- What `Agree` says about ids that no later entry names. -/
theorem Agree.use {s : St} (hb : Inv s) {c : Content} {n a : Nat}
    (h : Agree (writes s.log) c a (off s.log s.dataLog)) (ha : off s.log n ≤ a) (hn : n ≤ s.dataLog)
    {i : Nat} (hi : ∀ e ∈ (s.log.take s.dataLog).drop n, e.names i = false) :
    held c i = held s.data i := by
  rw [hb.dataOk i, ← writes_take]
  refine (h.down ha).ok i (fun o ho => ?_)
  rw [writes_take] at ho
  have hsplit : writes (s.log.take s.dataLog) =
      writes (s.log.take n) ++ writes ((s.log.take s.dataLog).drop n) := by
    rw [← writes_append]
    congr 1
    conv => lhs; rw [← List.take_append_drop n (s.log.take s.dataLog)]
    rw [List.take_take, Nat.min_eq_left hn]
  rw [hsplit, show off s.log n = (writes (s.log.take n)).length from rfl, List.drop_left] at ho
  obtain ⟨e, he, ho⟩ := List.mem_flatMap.1 ho
  exact names_iff.1 (hi e he) o ho

/-- C64, in part: whatever has happened, the region's index holds for an id exactly what the data
holds, except for ids named by entries that are in the data but not yet applied.  What is missing for
the full property is the hypothesis `okRun`: each of the steps it excludes is possible, and after each
of them the index may disagree for good, see the theorems below whose names end in `_false`. -/
theorem C64_index_agrees_partial (g : Cfg) (hg : g.ok = true) (evs : List Ev) (hok : okRun g evs = true)
    (hown : (run g evs).own ≠ none) (i : Nat)
    (hi : ∀ e ∈ ((run g evs).log.take (run g evs).dataLog).drop (run g evs).applied,
      e.names i = false) :
    (run g evs).inIndex i = held (run g evs).data i := by
  have hb : Inv (run g evs) := Inv.init.run hg hok
  generalize run g evs = s at *
  unfold St.inIndex
  cases ho : s.own with
  | none => exact absurd ho hown
  | some k =>
    obtain ⟨x, hx, hA⟩ := hb.ownOk k ho
    simp only [hx]
    exact hA.use hb (front_ge s) hb.appLe hi

/-- C64, in part: at rest the index holds exactly what the data holds.  Missing: as above. -/
theorem C64_index_exact_partial (g : Cfg) (hg : g.ok = true) (evs : List Ev) (hok : okRun g evs = true)
    (hrest : (run g evs).rest = true) (i : Nat) :
    (run g evs).inIndex i = (lastWrite (writes (run g evs).log) i).toList := by
  have h := hrest
  simp only [St.rest, Bool.and_eq_true, beq_iff_eq, Option.isSome_iff_ne_none] at h
  obtain ⟨⟨⟨⟨⟨_, h1⟩, h2⟩, _⟩, _⟩, h3⟩ := h
  rw [C64_index_agrees_partial g hg evs hok h3 i ?_, C64_data g evs i, ← h1, h2, List.take_length]
  intro e he
  rw [← h1, List.drop_eq_nil_of_le (by rw [List.length_take]; exact Nat.min_le_left _ _)] at he
  cases he

/-- C64, in part: an index in a file holds for an id exactly what the data holds, except for ids named
by entries after the one the file says it goes up to.  Missing: as above. -/
theorem C64_file_partial (g : Cfg) (hg : g.ok = true) (evs : List Ev) (hok : okRun g evs = true)
    (x : Idx) (hx : (run g evs).snap = some x) (i : Nat)
    (hi : ∀ e ∈ ((run g evs).log.take (run g evs).dataLog).drop x.applyLog, e.names i = false) :
    held x.content i = held (run g evs).data i := by
  have hb : Inv (run g evs) := Inv.init.run hg hok
  obtain ⟨hle, hA⟩ := hb.snapOk x hx
  exact hA.use hb (Nat.le_refl _) hle hi

/-! ### Runs -/

/-- An entry is committed and applied while the region has no index. -/
def cold (e : Entry) : List Ev := [.commit e, .write, .check, .done]

/-- An entry without a write to the index is committed and applied. -/
def silent (e : Entry) : List Ev := [.commit e, .write, .done]

/-- An entry with one call is applied to the index. -/
def warm : List Ev := [.write, .check, .pass, .take, .call, .mark, .done]

/-- An index is built when `n` entries are applied. -/
def rebuilt (n : Nat) : List Ev := [.build n, .fill 0, .on 0, .replay 0, .swap 0, .off 0]

/-- The newest file is loaded and becomes the region's index. -/
def reload : List Ev := [.load, .on 0, .replay 0, .swap 0, .off 0]

def gFlat : Cfg := { kind := .flat }
def gHnsw : Cfg := { kind := .hnsw }

def addE (vs : List (Nat × Nat)) : Entry := { cmd := .add true vs }

/-- A run with all of it: entries applied without and with an index, an index built while entries come
in, a file saved, a crash, the file loaded and the entries applied again. -/
def exRun : List Ev :=
  cold (addE [(1, 10), (2, 20)]) ++ [.build 1] ++
  cold { cmd := .del [2] } ++ [.fill 0] ++ silent { cmd := .other } ++
  [.replay 0, .on 0, .replay 0, .swap 0, .off 0] ++
  [.commit (addE [(3, 30), (1, 11)])] ++ warm ++ [.hold, .save] ++
  [.commit { cmd := .batch true [(4, 40)] [3] }] ++
  [.write, .check, .pass, .take, .call, .mark, .check, .pass, .take, .call, .mark, .done] ++
  [.crash] ++ reload ++
  [.write, .check, .done, .write, .check, .done, .write, .done, .write, .check, .done] ++
  [.write, .check, .pass, .take, .call, .mark, .check, .pass, .take, .call, .mark, .done]

example : okRun gFlat exRun = true ∧ (run gFlat exRun).rest = true ∧
    (run gFlat exRun).own = some 0 ∧ (run gFlat exRun).log.length = 5 ∧
    (List.range 5).map (run gFlat exRun).inIndex = [[], [11], [], [], [40]] ∧
    (List.range 5).map (held (run gFlat exRun).data) = [[], [11], [], [], [40]] := by decide +kernel

example : okRun { kind := .ivf } exRun = true ∧
    (List.range 5).map (run { kind := .ivf } exRun).inIndex = [[], [11], [], [], [40]] := by
  decide +kernel

/-- With HNSW the delete is to be applied after the data is read. -/
def exRun2 : List Ev :=
  cold (addE [(1, 10), (2, 20)]) ++ [.build 1, .fill 0] ++
  cold { cmd := .del [2] } ++ silent { cmd := .other } ++
  [.replay 0, .on 0, .replay 0, .swap 0, .off 0] ++ exRun.drop 18

example : okRun gHnsw exRun = false ∧ okRun gHnsw exRun2 = true ∧ (run gHnsw exRun2).rest = true ∧
    (List.range 5).map (run gHnsw exRun2).inIndex = [[], [11], [], [], [40]] := by decide +kernel

/-- In the middle of that run, an entry is in the data and not in the index. -/
example : ((run gFlat (exRun.take 22)).own, (run gFlat (exRun.take 22)).applied,
    (run gFlat (exRun.take 22)).dataLog, (run gFlat (exRun.take 22)).inIndex 2,
    (run gFlat (exRun.take 22)).inIndex 3, held (run gFlat (exRun.take 22)).data 3) =
    (some 0, 3, 4, [], [], [30]) := by decide +kernel

/-! ### Each exclusion is needed

In each of these runs, only the one step given by `bad` is not as `okRun` has it; at the end everything
is at rest; and the index does not hold what the data holds.  Nothing that happens later repairs it,
short of another build. -/

/-- C64 is false: the replay stops before the last applied entry, so the index goes without it. -/
theorem C64_catch_up_false : ∃ evs, bad gFlat evs = [.swap 0] ∧ (run gFlat evs).rest = true ∧
    held (run gFlat evs).data 2 = [20] ∧ (run gFlat evs).inIndex 2 = [] :=
  ⟨cold (addE [(1, 10)]) ++ [.build 1, .fill 0] ++ cold (addE [(2, 20)]) ++
    [.replay 0, .on 0, .replay 0, .swap 0, .off 0], by decide +kernel⟩

/-- C64 is false: an entry for which the apply thread has taken the old index when the switch is made
goes to the old index. -/
theorem C64_switch_false : ∃ evs, bad gFlat evs = [.swap 0] ∧ (run gFlat evs).rest = true ∧
    held (run gFlat evs).data 2 = [20] ∧ (run gFlat evs).inIndex 2 = [] :=
  ⟨rebuilt 0 ++ [.build 0, .fill 0] ++ [.commit (addE [(2, 20)]), .write, .check, .pass, .take] ++
    [.on 0, .replay 0, .swap 0, .off 0] ++ [.call, .mark, .done], by decide +kernel⟩

/-- C64 is false: an entry that finds the index not ready just before the first switch is in neither the
replay nor the index. -/
theorem C64_first_switch_false : ∃ evs, bad gFlat evs = [.swap 0] ∧ (run gFlat evs).rest = true ∧
    held (run gFlat evs).data 2 = [20] ∧ (run gFlat evs).inIndex 2 = [] :=
  ⟨[.build 0, .fill 0] ++ [.commit (addE [(2, 20)]), .write, .check] ++
    [.on 0, .replay 0, .swap 0, .off 0] ++ [.done], by decide +kernel⟩

/-- C64 is false: a replay passes over what transactions wrote. -/
theorem C64_txn_replay_false : ∃ evs, bad gFlat evs = [.replay 0] ∧
    (run gFlat evs).rest = true ∧
    held (run gFlat evs).data 1 = [10] ∧ (run gFlat evs).inIndex 1 = [] :=
  ⟨[.build 0, .fill 0] ++ cold { cmd := .txn [(1, 10)] [] } ++ cold (addE [(2, 20)]) ++
    silent { cmd := .other } ++ [.on 0, .replay 0, .swap 0, .off 0], by decide +kernel⟩

/-- C64 is false: a replay adds what an entry refused for its epoch carries. -/
theorem C64_epoch_false : ∃ evs, bad gFlat evs = [.replay 0] ∧ (run gFlat evs).rest = true ∧
    held (run gFlat evs).data 1 = [] ∧ (run gFlat evs).inIndex 1 = [10] :=
  ⟨[.build 0, .fill 0] ++ silent { cmd := .add true [(1, 10)], valid := false } ++
    silent { cmd := .other } ++ [.on 0, .replay 0, .swap 0, .off 0], by decide +kernel⟩

/-- C64 is false: the delete of a transaction's entry is made again after a restart, though a later
entry that the index already has added the vector. -/
theorem C64_txn_delete_false : ∃ evs, bad gFlat evs = [.check] ∧ (run gFlat evs).rest = true ∧
    held (run gFlat evs).data 1 = [10] ∧ (run gFlat evs).inIndex 1 = [] :=
  ⟨rebuilt 0 ++ [.commit { cmd := .txn [(2, 20)] [1] }] ++
    [.write, .check, .pass, .take, .call, .mark, .check, .pass, .take, .call, .mark, .done] ++
    [.commit (addE [(1, 10)])] ++ warm ++ [.hold, .save] ++ [.crash] ++ reload ++
    [.write, .check, .check, .pass, .take, .call, .mark, .done, .write, .check, .done],
    by decide +kernel⟩

/-- C64 is false: after a switch the wrapper's id is stored but the index is not; an older file loaded
after a restart lacks the entries that are left out for that id. -/
theorem C64_restart_false : ∃ evs, bad gFlat evs = [.swap 0] ∧ (run gFlat evs).rest = true ∧
    held (run gFlat evs).data 1 = [10] ∧ (run gFlat evs).inIndex 1 = [] :=
  ⟨rebuilt 0 ++ [.hold, .save] ++ [.commit (addE [(1, 10)])] ++ warm ++ rebuilt 1 ++ [.crash] ++
    reload ++ [.write, .check, .done], by decide +kernel⟩

/-- C64 is false: a file saved between the two calls of an entry is taken to have both. -/
theorem C64_save_between_false : ∃ evs, bad gFlat evs = [.save] ∧ (run gFlat evs).rest = true ∧
    held (run gFlat evs).data 1 = [] ∧ (run gFlat evs).inIndex 1 = [10] :=
  ⟨rebuilt 0 ++ [.commit (addE [(1, 10)])] ++ warm ++
    [.commit { cmd := .batch true [(2, 20)] [1] }, .write, .check, .pass, .take, .call, .mark] ++
    [.hold, .save, .crash] ++ reload ++ [.write, .check, .done, .write, .check, .check, .done],
    by decide +kernel⟩

/-- C64 is false: a task that saves holds the old index over a switch and writes it down as being as far
as the new one is. -/
theorem C64_save_old_false : ∃ evs, bad gFlat evs = [.save] ∧ (run gFlat evs).rest = true ∧
    held (run gFlat evs).data 1 = [10] ∧ (run gFlat evs).inIndex 1 = [] :=
  ⟨rebuilt 0 ++ [.hold] ++ rebuilt 0 ++ [.commit (addE [(1, 10)])] ++ warm ++ [.save, .crash] ++
    reload ++ [.write, .check, .done], by decide +kernel⟩

/-- C64 is false: a replay gathers several adds of an id, and a flat index refuses them all. -/
theorem C64_replay_duplicates_false : ∃ evs, bad gFlat evs = [.replay 0] ∧
    (run gFlat evs).rest = true ∧
    held (run gFlat evs).data 1 = [11] ∧ (run gFlat evs).inIndex 1 = [] ∧
    held (run gFlat evs).data 2 = [20] ∧ (run gFlat evs).inIndex 2 = [] :=
  ⟨[.build 0, .fill 0] ++ cold (addE [(1, 10)]) ++ cold (addE [(2, 20)]) ++ cold (addE [(1, 11)]) ++
    silent { cmd := .other } ++ [.on 0, .replay 0, .swap 0, .off 0], by decide +kernel⟩

/-- C64 is false: a replay repeats a delete the index was built without, and an HNSW index then leaves
out the deletes gathered with it. -/
theorem C64_replay_delete_false : ∃ evs, bad gHnsw evs = [.replay 0] ∧
    (run gHnsw evs).rest = true ∧
    held (run gHnsw evs).data 2 = [] ∧ (run gHnsw evs).inIndex 2 = [20] :=
  ⟨cold (addE [(1, 10), (2, 20)]) ++ [.build 1] ++ cold { cmd := .del [1] } ++ [.fill 0] ++
    cold { cmd := .del [2] } ++ silent { cmd := .other } ++ [.on 0, .replay 0, .swap 0, .off 0],
    by decide +kernel⟩

/-- C64 is false: an HNSW index asked to delete an id it does not hold leaves out the ids after it. -/
theorem C64_apply_delete_false : ∃ evs, bad gHnsw evs = [.call] ∧ (run gHnsw evs).rest = true ∧
    held (run gHnsw evs).data 2 = [] ∧ (run gHnsw evs).inIndex 2 = [20] :=
  ⟨rebuilt 0 ++ [.commit (addE [(2, 20)])] ++ warm ++ [.commit { cmd := .del [1, 2] }] ++ warm,
    by decide +kernel⟩

end Verif.VecIndex
