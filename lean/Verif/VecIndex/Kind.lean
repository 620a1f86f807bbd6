/-!
# The index kinds: what one call does to the contents of a vector index

The index keeps, in memory, pairs of a vector id and a vector.  Which of them a search returns is
not modelled: a search can only return pairs the index holds.  Ids and vectors are natural numbers
here; dimension checks, the metric, training and the numerical part of the libraries are left out.
An inverted-file index is taken to be trained.
-/

namespace Verif.VecIndex

/-- The pairs an index holds, oldest first: `index_id_map2_` of a flat index
(src/vector/vector_index_flat.cc:120-202), `index_` of an inverted-file index
(src/vector/vector_index_ivf_flat.cc:95-188), the elements not marked deleted of an HNSW index
(src/vector/vector_index_hnsw.cc:203-279).  The same id may occur several times. -/
abbrev Content := List (Nat × Nat)

/-- The vectors held under an id. -/
def held (c : Content) (i : Nat) : List Nat := (c.filter (fun p => p.1 == i)).map (·.2)

/-- src/vector/vector_index.h: the kinds modelled, `VECTOR_INDEX_TYPE_FLAT`,
`VECTOR_INDEX_TYPE_IVF_FLAT` and `VECTOR_INDEX_TYPE_HNSW`.  DiskANN, brute force and IVF-PQ are not
modelled. -/
inductive Kind where
  | flat
  | ivf
  | hnsw
  deriving Repr, DecidableEq

/-- The kind and the batch sizes: `ivf_vector_write_batch_size_per_task`
(src/vector/vector_index.cc:53), `hnsw_vector_write_batch_size_per_task`
(src/vector/vector_index_hnsw.cc:53), `kBuildVectorIndexBatchSize` (src/common/constant.h:173) and
`vector_catchup_log_min_gap` (src/vector/vector_index_manager.cc:51). -/
structure Cfg where
  kind : Kind
  ivfBatch : Nat := 256
  hnswBatch : Nat := 16
  buildBatch : Nat := 32768
  minGap : Nat := 8
  deriving Repr, DecidableEq

/-- The batch sizes are positive.  With a batch size of 0 the loops of
src/vector/vector_index.cc:62 and src/vector/vector_index_hnsw.cc:97 do not end. -/
def Cfg.ok (g : Cfg) : Bool := decide (0 < g.ivfBatch) && decide (0 < g.hnswBatch) && decide (0 < g.buildBatch)

/-- How a call ends: `OK`, `EVECTOR_INVALID`, or another error
(src/vector/vector_index_flat.cc:123-136, src/vector/vector_index_ivf_flat.cc:98-100 and 181-184,
src/vector/vector_index_hnsw.cc:204-206). -/
inductive Stat where
  | ok
  | invalid
  | err
  deriving Repr, DecidableEq

/-- `remove_ids` with an `IDSelectorBatch` (src/vector/vector_index_flat.cc:145-148,
src/vector/vector_index_ivf_flat.cc:116-117): all pairs of the given ids go. -/
def removeIds (c : Content) (ids : List Nat) : Content := c.filter (fun p => !ids.contains p.1)

/-- No id twice: src/vector/vector_index_utils.cc:551-561, `CheckVectorIdDuplicated`. -/
def distinct : List Nat → Bool
  | [] => true
  | a :: l => !l.contains a && distinct l

/-- src/vector/vector_index_flat.cc:120-162, `AddOrUpsert` of a flat index: adding and upserting are
the same. -/
def flatAdd (c : Content) (vs : List (Nat × Nat)) : Content × Stat :=
  if vs.isEmpty then (c, .err)
  else if !distinct (vs.map (·.1)) then (c, .err)
  else (removeIds c (vs.map (·.1)) ++ vs, .ok)

/-- src/vector/vector_index_flat.cc:175-202, `Delete` of a flat index: only ids found are removed, so
the count removed is never 0 and the call always succeeds. -/
def flatDel (c : Content) (ids : List Nat) : Content × Stat := (removeIds c ids, .ok)

/-- src/vector/vector_index_ivf_flat.cc:95-150, `AddOrUpsert` of a trained inverted-file index. -/
def ivfAdd (up : Bool) (c : Content) (vs : List (Nat × Nat)) : Content × Stat :=
  if vs.isEmpty then (c, .err)
  else ((if up then removeIds c (vs.map (·.1)) else c) ++ vs, .ok)

/-- src/vector/vector_index_ivf_flat.cc:163-188, `Delete` of a trained inverted-file index. -/
def ivfDel (c : Content) (ids : List Nat) : Content × Stat :=
  if ids.isEmpty then (c, .ok)
  else if (removeIds c ids).length = c.length then (c, .invalid)
  else (removeIds c ids, .ok)

/-- `addPoint` of the HNSW library: the vector of an existing label is replaced, also when the label
is marked deleted (the library is a submodule that is not part of the repository). -/
def addPoint (c : Content) (p : Nat × Nat) : Content := removeIds c [p.1] ++ [p]

/-- src/vector/vector_index_hnsw.cc:203-254, `Upsert` of an HNSW index; `Add` is the same (191-197).
Simplification: the points are added one after another.  The code adds batches of them in parallel
(85-133), so when an id occurs twice in different batches, which vector stays is not determined. -/
def hnswAdd (c : Content) (vs : List (Nat × Nat)) : Content × Stat :=
  if vs.isEmpty then (c, .err) else (vs.foldl addPoint c, .ok)

/-- One task of `ParallelFor` over `markDelete` (src/vector/vector_index_hnsw.cc:102-109 and 270-271):
the library throws for a label that is unknown or already deleted, the thread pool catches the
exception and logs it (src/common/threadpool.cc:160-172), and the rest of the task's ids is
skipped. -/
def markAll (c : Content) : List Nat → Content
  | [] => c
  | i :: l => if held c i = [] then c else markAll (removeIds c [i]) l

/-- The list cut into pieces of `n`; the first argument bounds the number of pieces. -/
def cut {α : Type} : Nat → Nat → List α → List (List α)
  | 0, _, _ => []
  | f + 1, n, l => if l.isEmpty then [] else l.take n :: cut f n (l.drop n)

/-- src/vector/vector_index.cc:59-70, `SplitVectorWithId`. -/
def pieces {α : Type} (n : Nat) (l : List α) : List (List α) := cut l.length n l

/-- src/vector/vector_index_hnsw.cc:258-279, `Delete` of an HNSW index that has a thread pool.
Simplification: the tasks run one after another. -/
def hnswDel (n : Nat) (c : Content) (ids : List Nat) : Content × Stat :=
  ((pieces n ids).foldl markAll c, .ok)

/-- src/vector/vector_index.cc:72-104, `ParallelRun`: every batch is worked off and the first status
that is not `OK` is returned.  Simplification: the batches are worked off one after another; in
`C65_batches` they may come in any order. -/
def runBatches (f : Content → List (Nat × Nat) → Content × Stat) (c : Content) :
    List (List (Nat × Nat)) → Content × Stat
  | [] => (c, .ok)
  | b :: bs =>
    let r := f c b
    let r' := runBatches f r.1 bs
    (r'.1, if r.2 = .ok then r'.2 else r.2)

/-- src/vector/vector_index.cc:193-228, `AddByParallel` (`up` = false) and `UpsertByParallel`. -/
def addP (g : Cfg) (up : Bool) (c : Content) (vs : List (Nat × Nat)) : Content × Stat :=
  match g.kind with
  | .hnsw => hnswAdd c vs
  | .flat => runBatches flatAdd c (pieces g.ivfBatch vs)
  | .ivf => runBatches (ivfAdd up) c (pieces g.ivfBatch vs)

/-- src/vector/vector_index.cc:232-242, `DeleteByParallel`: one batch, except for HNSW. -/
def delP (g : Cfg) (c : Content) (ids : List Nat) : Content × Stat :=
  match g.kind with
  | .hnsw => hnswDel g.hnswBatch c ids
  | .flat => flatDel c ids
  | .ivf => ivfDel c ids

/-- One call into an index. -/
inductive Op where
  | add (up : Bool) (vs : List (Nat × Nat))
  | del (ids : List Nat)
  deriving Repr, DecidableEq

/-- The call, by kind of index. -/
def Op.run (g : Cfg) (c : Content) : Op → Content × Stat
  | .add up vs => addP g up c vs
  | .del ids => delP g c ids

/-- The part of a list of vectors whose ids are in `[lo, hi)`: `FilterVectorWithId`
(src/vector/vector_index.cc:896-917). -/
def inRange (r : Nat × Nat) (vs : List (Nat × Nat)) : List (Nat × Nat) :=
  vs.filter (fun p => decide (r.1 ≤ p.1) && decide (p.1 < r.2))

/-- A pair of indexes that a region holds after it took in a neighbour: its own and the neighbour's
(`SiblingVectorIndex`), with the ranges of ids they are for. -/
structure Pair where
  own : Content
  ownRange : Nat × Nat
  sib : Content
  sibRange : Nat × Nat
  deriving Repr, DecidableEq

/-- src/vector/vector_index.cc:940-957 and 987-1004: `Add` and `Upsert` of a wrapper that has a sibling
index. -/
def Pair.add (g : Cfg) (up : Bool) (w : Pair) (vs : List (Nat × Nat)) : Pair × Stat :=
  let r := addP g up w.sib (inRange w.sibRange vs)
  if r.2 ≠ .ok then ({ w with sib := r.1 }, r.2)
  else
    let q := addP g up w.own (inRange w.ownRange vs)
    if q.2 ≠ .ok then
      ({ w with own := q.1, sib := (delP g r.1 ((inRange w.sibRange vs).map (·.1))).1 }, q.2)
    else ({ w with own := q.1, sib := r.1 }, .ok)

end Verif.VecIndex
