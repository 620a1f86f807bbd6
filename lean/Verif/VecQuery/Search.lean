import Verif.VecQuery.Model

/-!
# Vector search (model)

Models the search of `src/vector/vector_reader.cc` (`SearchVector` and what it calls),
the part of `src/vector/vector_index.cc` and `src/vector/vector_index.h` that splits,
filters and merges, and the flat index (`src/vector/vector_index_flat.cc`).

The numerical library (faiss) is a parameter: its numbers, the order in which it lists
equally distant vectors, and for other kinds than flat how many it misses.  Distances
are integers (see `Model`): rounding and values that are not numbers are not modelled.
All vectors have the dimension of the index; the service checks that of queries and
writes.  A search sees one state of the data, and indexes that do not change meanwhile;
reads that see different states are the subject of C78.  Every task given to the
thread pool runs.  Coprocessors, filters on table data and DiskANN are not modelled.
-/

namespace Verif.VecQuery

/-- A vector found: `pb::common::VectorWithDistance`. -/
structure Hit where
  id : Int
  dist : Int
deriving DecidableEq, Repr

/-- `pb::common::MetricType`. -/
inductive Metric where
  | l2 | ip | cosine | hamming
deriving DecidableEq, Repr

/-- The metrics for which a greater number is nearer,
`vector/vector_index_flat.cc:282-285`. -/
def Metric.inner : Metric → Bool
  | .ip => true
  | .cosine => true
  | _ => false

/-- The numerical library: the number it computes for a query and a vector, what it
lists for the `k` nearest of a list of labelled numbers (unused places have the label
-1) and for those nearer than a radius; `one` is the number `1.0F`. -/
structure Faiss where
  score : Metric → Vec → Vec → Int
  one : Int
  top : Metric → List Hit → Nat → List Hit
  within : Metric → List Hit → Int → List Hit

/-! ## Filters -/

/-- `SortFilterFunctor::IsExist`, `vector/vector_index.h:126-141`; the first argument
bounds the number of rounds.  `vector_ids_[mid]` is in bounds. -/
def isExist (ids : List Int) (x : Int) : Nat → Int → Int → Bool
  | 0, _, _ => false
  | n + 1, b, e =>
    if b ≤ e then
      let mid := (b + e) / 2
      let y := ids.getD mid.toNat 0
      if x = y then true
      else if x < y then isExist ids x n b (mid - 1)
      else isExist ids x n (mid + 1) e
    else false

/-- `RangeFilterFunctor`, `vector/vector_index.h:75-84`, and `SortFilterFunctor`,
108-146. -/
inductive Filter where
  | range (lo hi : Int)
  | ids (l : List Int) (neg : Bool)
deriving DecidableEq, Repr

/-- `Check`, `vector/vector_index.h:79` and `121-124`. -/
def Filter.check (x : Int) : Filter → Bool
  | .range lo hi => decide (x ≥ lo) && decide (x < hi)
  | .ids l neg =>
    let exist := isExist l x (l.length + 1) 0 (l.length - 1)
    if neg then !exist else exist

/-- `FlatIDSelector::is_member`, `vector/vector_index_flat.h:40-51`. -/
def pass (fs : List Filter) (x : Int) : Bool := fs.all (Filter.check x)

/-- Ordered insert, for `std::sort` of `vector/vector_reader.cc:1775`. -/
def insertId (x : Int) : List Int → List Int
  | [] => [x]
  | y :: l => if x ≤ y then x :: y :: l else y :: insertId x l

/-- `std::sort`. -/
def sortIds (l : List Int) : List Int := l.foldr insertId []

/-- `VectorReader::SetVectorIndexIdsFilter`, `vector/vector_reader.cc:1772-1779`. -/
def idsFilter (neg sorted : Bool) (ids : List Int) : Filter := .ids (if sorted then ids else sortIds ids) neg

/-! ## One index -/

/-- What an index holds. -/
abbrev Index := List (Int × Vec)

/-- The labelled numbers the library computes for the vectors a filter lets pass. -/
def scored (F : Faiss) (m : Metric) (ix : Index) (fs : List Filter) (q : Vec) : List Hit :=
  (ix.filter fun p => pass fs p.1).map fun p => ⟨p.1, F.score m q p.2⟩

/-- The distance a user sees, `vector/vector_index_utils.cc:632-637`, `672-681`. -/
def userDist (F : Faiss) (m : Metric) (x : Int) : Int := if m.inner then F.one - x else x

/-- `VectorIndexUtils::FillSearchResult`, `vector/vector_index_utils.cc:612-655`, for
one query. -/
def fillHits (F : Faiss) (m : Metric) (raw : List Hit) : List Hit :=
  raw.filterMap fun h => if h.id < 0 then none else some ⟨h.id, userDist F m h.dist⟩

/-- `VectorIndexFlat::Search`, `vector/vector_index_flat.cc:205-264`, for one query and
`topk` > 0. -/
def flatSearch (F : Faiss) (m : Metric) (ix : Index) (fs : List Filter) (k : Nat) (q : Vec) : List Hit :=
  fillHits F m (F.top m (scored F m ix fs q) k)

/-- `VectorIndexFlat::RangeSearch`, `vector/vector_index_flat.cc:267-323`, and
`FillRangeSearchResult`, `vector/vector_index_utils.cc:657-694`, for one query. -/
def flatRange (F : Faiss) (m : Metric) (ix : Index) (fs : List Filter) (radius : Int) (q : Vec) : List Hit :=
  (F.within m (scored F m ix fs q) (if m.inner then F.one - radius else radius)).map fun h =>
    ⟨h.id, userDist F m h.dist⟩

/-- The list cut into pieces of `n`, `SplitVectorWithId`, `vector/vector_index.cc:59-70`;
the first argument bounds the number of pieces. -/
def split {α : Type} : Nat → Nat → List α → List (List α)
  | 0, _, _ => []
  | f + 1, n, l => if l.isEmpty then [] else l.take n :: split f n (l.drop n)

/-- `results[index + i].Swap(&part_results[i])`, `vector/vector_index.cc:263-265`. -/
def writePart {α : Type} (res : List α) (i : Nat) : List α → List α
  | [] => res
  | x :: part => writePart (res.set i x) (i + 1) part

/-- One task, `vector/vector_index.cc:259-268`: `index` is the number of the piece, not
of its first query. -/
def endTask {α : Type} (f : Vec → List α) (batches : List (List Vec)) (res : List (List α)) (index : Nat) :
    List (List α) :=
  match batches[index]? with
  | some batch => writePart res index (batch.map f)
  | none => res

/-- `VectorIndex::SearchByParallel` and `RangeSearchByParallel`,
`vector/vector_index.cc:244-300`, with `ParallelRun`, 73-104: the queries are cut into
pieces of `size` (`FLAGS_vector_read_batch_size_per_task`, default 1), and the tasks
end in the order `order`. -/
def parallel {α : Type} (size : Nat) (order : List Nat) (f : Vec → List α) (qs : List Vec) : List (List α) :=
  order.foldl (endTask f (split qs.length size qs)) (List.replicate qs.length [])

/-! ## The indexes of a region -/

/-- `MergeSearchResult`, `vector/vector_index.cc:1056-1097`; the first argument is what
is left of `topk`. -/
def mergeHits : Nat → List Hit → List Hit → List Hit
  | 0, _, _ => []
  | n + 1, a :: as, b :: bs =>
    if a.dist ≤ b.dist then a :: mergeHits n as (b :: bs) else b :: mergeHits n (a :: as) bs
  | n + 1, a :: as, [] => a :: mergeHits n as []
  | n + 1, [], b :: bs => b :: mergeHits n [] bs
  | _ + 1, [], [] => []

/-- How a search fails: `EVECTOR_INDEX_NOT_FOUND`, `EKEY_NOT_FOUND`,
`EILLEGAL_PARAMTETERS`. -/
inductive SErr where
  | notReady | keyNotFound | illegal
deriving DecidableEq, Repr

/-- Outcome of a search. -/
inductive SOut (α : Type) where
  | ok (a : α)
  | error (e : SErr)
  | abort
deriving DecidableEq, Repr

/-- `VectorIndexWrapper`: its index and the range of regions that one was built for,
the index of a range taken over. -/
structure Wrap where
  ready : Bool := true
  own : Index
  range : Region
  sibling : Option Index := none
deriving DecidableEq, Repr

/-- How the thread pool behaves: pieces of `size` queries, and the order in which the
tasks of the `n`-th parallel run end. -/
structure Pool where
  size : Nat := 1
  order : Nat → List Nat

/-- The filters of a search without sibling index, `vector/vector_index.cc:1145-1155`. -/
def ownFilters (w : Wrap) (g : Region) (fs : List Filter) : List Filter :=
  if g = w.range then fs else fs ++ [.range g.lo g.hi]

/-- `VectorIndexWrapper::Search`, `vector/vector_index.cc:1110-1158`, and `RangeSearch`,
1171-1219; `f` is the search of one index and `k` is `topk` or `UINT32_MAX`. -/
def wrapSearch (P : Pool) (w : Wrap) (g : Region) (fs : List Filter) (k : Nat) (qs : List Vec)
    (f : Index → List Filter → Vec → List Hit) : SOut (List (List Hit)) :=
  if !w.ready then .error .notReady
  else
    match w.sibling with
    | some sib =>
      .ok (List.zipWith (mergeHits k) (parallel P.size (P.order 0) (f sib fs) qs)
        (parallel P.size (P.order 1) (f w.own fs) qs))
    | none => .ok (parallel P.size (P.order 0) (f w.own (ownFilters w g fs)) qs)

/-! ## Brute force -/

/-- `operator<` of `DistanceResult`, `vector/vector_reader.cc:1855-1861`. -/
def Hit.lt (a b : Hit) : Bool := if a.dist ≠ b.dist then decide (a.dist < b.dist) else decide (a.id < b.id)

/-- `std::priority_queue::emplace`; the queue is a list, its top at the end. -/
def insertHit (h : Hit) : List Hit → List Hit
  | [] => [h]
  | x :: l => if h.lt x then h :: x :: l else x :: insertHit h l

/-- `vector/vector_reader.cc:1962-1972`: one hit of a batch. -/
def pushHit (k : Nat) (t : List Hit) (h : Hit) : List Hit :=
  if t.length < k then insertHit h t
  else
    match t.getLast? with
    | some l => if l.dist > h.dist then insertHit h t.dropLast else t
    | none => t

/-- `vector/vector_reader.cc:2121-2131`: one query of a batch of a range search; `cap`
is `FLAGS_vector_index_max_range_search_result_count`. -/
def pushRange (cap : Nat) (t : List Hit) : List Hit → List Hit
  | [] => t
  | h :: hs => if t.length < cap then pushRange cap (t ++ [h]) hs else t

/-- The loop over the rows, `vector/vector_reader.cc:1922-2021` and `2085-2182`: rows are
gathered until there are `size` of them, put into a fresh index and searched; what is
left is searched at the end.  `batch n rows tops` is the work of the `n`-th batch. -/
def bruteLoop (size : Nat) (batch : Nat → Index → List (List Hit) → List (List Hit)) :
    Nat → Index → List (List Hit) → List (Item Vec) → SOut (List (List Hit))
  | n, rows, tops, [] => .ok (if rows.isEmpty then tops else batch n rows tops)
  | _, _, _, .abort :: _ => .abort
  | n, rows, tops, .row k v :: rest =>
    if k.1 ≤ 0 then .abort
    else
      let rows' := rows ++ [(k.1, v)]
      if rows'.length = size then bruteLoop size batch (n + 1) [] (batch n rows' tops) rest
      else bruteLoop size batch n rows' tops rest

/-- `VectorReader::BruteForceSearch`, `vector/vector_reader.cc:1873-2048`: a region
without rows yields no results at all.  `size` is
`FLAGS_vector_index_bruteforce_batch_count`. -/
def bruteSearch (F : Faiss) (m : Metric) (P : Pool) (size : Nat) (w : Wrap) (g : Region) (d : World)
    (fs : List Filter) (k : Nat) (qs : List Vec) : SOut (List (List Hit)) :=
  if !w.ready then .error .notReady
  else
    match forward (effTs 0) d.now none (rowsFrom g g.lo d.db.data) with
    | [] => .ok []
    | its =>
      bruteLoop size (fun n rows tops =>
        List.zipWith (fun t r => r.foldl (pushHit k) t) tops
          (parallel P.size (P.order n) (flatSearch F m rows fs k) qs)) 0 [] (List.replicate qs.length []) its

/-- `VectorReader::BruteForceRangeSearch`, `vector/vector_reader.cc:2050-2202`. -/
def bruteRange (F : Faiss) (m : Metric) (P : Pool) (size cap : Nat) (g : Region) (d : World)
    (fs : List Filter) (radius : Int) (qs : List Vec) : SOut (List (List Hit)) :=
  match forward (effTs 0) d.now none (rowsFrom g g.lo d.db.data) with
  | [] => .ok []
  | its =>
    bruteLoop size (fun n rows tops =>
      List.zipWith (fun t r => pushRange cap t r) tops
        (parallel P.size (P.order n) (flatRange F m rows fs radius) qs)) 0 [] (List.replicate qs.length []) its

/-! ## The search request -/

/-- What a search filters by: nothing or scalar data after the search
(`SCALAR_FILTER`, `QUERY_POST`), ids (`VECTOR_ID_FILTER`), scalar data before the search
(`SCALAR_FILTER`, `QUERY_PRE`). -/
inductive By where
  | post
  | ids (l : List Int) (neg sorted : Bool)
  | pre
deriving DecidableEq, Repr

/-- A `VectorSearch` request: the vectors searched for with their scalar data, `top_n`,
`use_brute_force`, `enable_range_search` with `radius`. -/
structure SearchReq where
  qs : List VecIn
  topN : Nat
  brute : Bool := false
  radius : Option Int := none
  by_ : By := .post
deriving DecidableEq, Repr

/-- What does not change from search to search. -/
structure Env where
  F : Faiss
  m : Metric
  P : Pool
  size : Nat
  cap : Nat
  schema : List Field

/-- `VectorReader::SearchAndRangeSearchWrapper`, `vector/vector_reader.cc:1781-1841`.
The fallback for kinds that do not support a search is not modelled. -/
def searchIndex (E : Env) (w : Wrap) (g : Region) (d : World) (r : SearchReq) (k : Nat) (fs : List Filter) :
    SOut (List (List Hit)) :=
  let qs := r.qs.map (·.vec)
  if r.brute then
    match r.radius with
    | some x => bruteRange E.F E.m E.P E.size E.cap g d fs x qs
    | none => bruteSearch E.F E.m E.P E.size w g d fs k qs
  else
    match r.radius with
    | some x => wrapSearch E.P w g fs (2 ^ 32 - 1) qs (fun ix fs q => flatRange E.F E.m ix fs x q)
    | none => wrapSearch E.P w g fs k qs (fun ix fs q => flatSearch E.F E.m ix fs k q)

/-- The loop over the candidates of one query, `vector/vector_reader.cc:188-211`, with
`CompareVectorScalarData`, 369-386; `limit` is `top_n`, none for a range search. -/
def postLoop (d : World) (want : Scalar) (limit : Option Nat) : List Hit → List Hit → SOut (List Hit)
  | acc, [] => .ok acc
  | acc, h :: rest =>
    match getScalar d 0 h.id with
    | .abort => .abort
    | .notFound => .error .keyNotFound
    | .value s =>
      if scalarMatch want s then
        match limit with
        | some n => if (acc ++ [h]).length ≥ n then .ok (acc ++ [h]) else postLoop d want limit (acc ++ [h]) rest
        | none => postLoop d want limit (acc ++ [h]) rest
      else postLoop d want limit acc rest

/-- The loop over the queries. -/
def postAll (d : World) (want : Scalar) (limit : Option Nat) : List (List Hit) → SOut (List (List Hit))
  | [] => .ok []
  | c :: cs =>
    match postLoop d want limit [] c with
    | .abort => .abort
    | .error e => .error e
    | .ok a =>
      match postAll d want limit cs with
      | .abort => .abort
      | .error e => .error e
      | .ok as => .ok (a :: as)

/-- The part of `VectorReader::SearchVector` that decides which vectors are found,
`vector/vector_reader.cc:103-238`, `DoVectorSearchForVectorIdPreFilter`, 830-851, and
`DoVectorSearchForScalarPreFilter`, 853-985.  The scalar data of the first vector
searched for is the filter. -/
def search (E : Env) (w : Wrap) (g : Region) (d : World) (r : SearchReq) : SOut (List (List Hit)) :=
  match r.qs with
  | [] => .ok []
  | q0 :: _ =>
    match r.by_ with
    | .post =>
      if q0.scalar = [] then searchIndex E w g d r r.topN []
      else
        match searchIndex E w g d r (r.topN * 10) [] with
        | .ok cs => postAll d q0.scalar (match r.radius with | some _ => none | none => some r.topN) cs
        | .error e => .error e
        | .abort => .abort
    | .ids l neg sorted => searchIndex E w g d r r.topN [idsFilter neg sorted l]
    | .pre =>
      if q0.scalar = [] then .error .illegal
      else
        match preFilterIds E.schema g d q0.scalar with
        | none => .abort
        | some ids => searchIndex E w g d r r.topN [idsFilter false false ids]

/-- What the response says about a vector found, `vector/vector_reader.cc:240-266` and
`439-466`: data that is not found is left out. -/
def answer (d : World) (w : Want) (h : Hit) : Option Entry :=
  match (if w.vec then getVec d 0 h.id else .notFound) with
  | .abort => none
  | v =>
    match (if w.scalar then getScalar d 0 h.id else .notFound) with
    | .abort => none
    | s =>
      match (if w.table then getTable d 0 h.id else .notFound) with
      | .abort => none
      | t =>
        some { id := some h.id
               vec := match v with | .value v => some v | _ => none
               scalar := match s with | .value s => some (select w.keys s) | _ => none
               table := match t with | .value t => some t | _ => none }

/-! ## What the index holds -/

/-- One write, as it is applied to a flat index (`vector/vector_index_flat.cc:121-202`);
an add that names an id twice is refused.  That the batches of a write do not matter is
C65. -/
def ixExec (ix : Index) : Op → Index
  | .add _ _ vs =>
    if (vs.map (·.id)).Nodup then
      (ix.filter fun p => !(vs.map (·.id)).contains p.1) ++ vs.map (fun v => (v.id, v.vec))
    else ix
  | .del _ ids => ix.filter fun p => !ids.contains p.1

/-- The index after a history of writes, in the order of the log (when it keeps up with
the log is C64). -/
def ixRun (ops : List Op) : Index := ops.foldl ixExec []

end Verif.VecQuery
