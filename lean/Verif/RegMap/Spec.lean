import Verif.RegMap.Model

/-!
# What lookups by key and reports should do (specification)

Nothing here mentions the range map's searches, the batches or the reports' rules.
-/

namespace Verif.RegMap
open Verif.Codec (Bytes)
open Verif.Region (Range Epoch RState)

/-- `r` is a region of the coordinator and has a non-empty range. -/
def Coor.Live (s : Coor) (r : Region) : Prop := s.regions r.id = some r ∧ r.start < r.stop

/-- Every region is kept under its own id, and ids are positive. -/
def Coor.Known (s : Coor) : Prop := ∀ i r, s.regions i = some r → r.id = i ∧ 0 < i

/-- No two regions claim the same key. -/
def Coor.Disjoint (s : Coor) : Prop :=
  ∀ r q, s.Live r → s.Live q → r.id ≠ q.id → r.stop ≤ q.start ∨ q.stop ≤ r.start

/-- `[lo, hi)` and the region's range have a key in common. -/
def Meets (lo hi : Bytes) (r : Region) : Prop := r.start < hi ∧ lo < r.stop

/-- `rs` lists, in key order and each once, the regions that meet `[lo, hi)`. -/
def Coor.Answer (s : Coor) (lo hi : Bytes) (rs : List Region) : Prop :=
  rs.Pairwise (fun a b => a.start < b.start) ∧ ∀ r, r ∈ rs ↔ s.Live r ∧ Meets lo hi r

/-- Where a range that was asked for ends; an end key of one zero byte means no end. -/
def endOf (stop : Bytes) : Bytes := if stop = [0] then maxKey else stop

/-- The range map finds the regions: at every start key below `maxKey` it has a region that is
there now, and of several regions with one start key the one that all the others give way to
under `O`. -/
structure Coor.Found (O : Region → Region → Prop) (s : Coor) : Prop where
  known : s.Known
  sorted : s.range.Pairwise (fun a b => a.1 < b.1)
  sound : ∀ k r, (k, r) ∈ s.range → k < maxKey → s.Live r ∧ r.start = k
  newest : ∀ r, s.Live r → r.start < maxKey →
    ∃ q, (r.start, q) ∈ s.range ∧ (q = r ∨ O r q)

/-- The range map finds the regions, and no two regions start at the same key. -/
def Coor.Exact (s : Coor) : Prop := s.Found (fun _ _ => False)

/-- Increments as the coordinator makes them, one kind at a time (heartbeats update, table and
region creation create, drops delete), under which lookups stay right.
`O r q`: region `q` takes over the start key from `r` — the child of a split from its parent,
the target of a merge from its source. -/
structure Clean (O : Region → Region → Prop) (s : Coor) (incs : List Inc) : Prop where
  /-- no region twice -/
  ids : (incs.map (fun i => i.region.id)).Nodup
  kind : (∀ i ∈ incs, i.op = .create) ∨ (∀ i ∈ incs, i.op = .update) ∨ (∀ i ∈ incs, i.op = .delete)
  /-- new regions have new ids -/
  fresh : ∀ i ∈ incs, i.op = .create → s.regions i.region.id = none ∧ 0 < i.region.id
  /-- a region without keys starts at `maxKey` or above (shadow regions, merged regions) -/
  parked : ∀ i ∈ incs, i.op ≠ .delete → i.region.live ∨ maxKey ≤ i.region.start
  /-- a region that is written takes its start key over from any other region there -/
  takes : ∀ i ∈ incs, i.op ≠ .delete → (s.apply incs).Live i.region → i.region.start < maxKey →
    ∀ q, (s.apply incs).Live q → q.start = i.region.start → q.id ≠ i.region.id → O q i.region
  /-- a region that moves away while another stays at its start key had given way to it -/
  leaves : ∀ i ∈ incs, i.op = .update → ∀ old, s.regions i.region.id = some old →
    (s.apply incs).regions i.region.id = some i.region → i.region.start ≠ old.start →
    old.start < old.stop → old.start < maxKey → ∀ q, s.Live q → (s.apply incs).Live q → q.start = old.start → q.id ≠ old.id → O old q
  /-- a region is dropped only when no other starts at its start key -/
  drops : ∀ i ∈ incs, i.op = .delete → ∀ old, s.regions i.region.id = some old → old.start < maxKey →
    ∀ q, (s.apply incs).Live q → q.start ≠ old.start

/-- The list of ids a coordinator goes through when it becomes leader: every region once. -/
def Coor.Lists (s : Coor) (order : List Nat) : Prop :=
  order.Nodup ∧ ∀ i r, s.regions i = some r → i ∈ order

/-- When a coordinator becomes leader: regions without keys are parked, and no two regions
start at the same key. -/
def Coor.Apart (s : Coor) : Prop :=
  (∀ i r, s.regions i = some r → r.start < r.stop ∨ maxKey ≤ r.start) ∧
  ∀ r q, s.Live r → s.Live q → r.id ≠ q.id → r.start ≠ q.start

inductive Ev where
  | apply (incs : List Inc)
  | lead (order : List Nat)

def Coor.step (s : Coor) : Ev → Coor
  | .apply incs => s.apply incs
  | .lead order => s.lead order

def Coor.run (s : Coor) (evs : List Ev) : Coor := evs.foldl Coor.step s

/-- Every increment of the history is clean and every change of leader finds the regions
apart. -/
def Coor.CleanRun (O : Region → Region → Prop) (s : Coor) : List Ev → Prop
  | [] => True
  | .apply incs :: evs => Clean O s incs ∧ Coor.CleanRun O (s.apply incs) evs
  | .lead order :: evs => (s.Lists order ∧ s.Apart) ∧ Coor.CleanRun O (s.lead order) evs

/-- A coordinator without regions. -/
def Coor.empty : Coor := ⟨fun _ => none, []⟩

end Verif.RegMap
