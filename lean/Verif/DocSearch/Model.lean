import Verif.Codec.Model

/-!
# Searching documents (model)

`DocumentIndex`, `DocumentIndexWrapper` (`document/document_index.cc`), `DocumentReader::SearchDocument`,
`DocumentSearch`, `DocumentSearchAll`, `DocumentSearchAllStreamState::Batch` (`document/document_reader.cc`),
`Storage::DocumentSearch`, `DocumentSearchAll` (`engine/storage.cc:1406-1462`).

* The full-text library (`contrib/tantivy-search`, not in the source tree) is a parameter: `Lib.rank`
  gives the documents of an index that match a query, best first.  What the library is told to leave
  out (ids, range, number) it leaves out; the range is from the first id to below the last.
* Scores are integers here (floating point in the code, without NaN).
* A document is bytes; that what is stored parses is C43/C105.  The choice of fields in an answer is
  not modelled: a hit comes with its document or without.
* `WITH_VECTOR_INDEX_USE_DOCUMENT_SPEEDUP` is the parameter `speedup` (by default it is off).
-/

namespace Verif.DocSearch
open Verif.Codec

structure Hit where
  id : Int
  score : Int
deriving DecidableEq, Repr

/-- A document to index: id and contents. -/
abbrev Doc := Int × Bytes

/-- The full-text library. -/
structure Lib where
  rank : Bytes → List Doc → List Hit

/-- `DocumentIndex`, `document/document_index.h:55-148`: the ids of its range, what it holds, and
whether it is marked as destroyed. -/
structure Index where
  lo : Int
  hi : Int
  docs : List Doc := []
  destroyed : Bool := false
deriving DecidableEq, Repr

/-- `DocumentSearchParameter`. -/
structure Param where
  query : Bytes
  topN : Nat
  unlimited : Bool := false
  ids : List Int := []
  /-- Whether the documents are asked for (`without_scalar_data`, `without_table_data`). -/
  data : Bool := true

/-- What the library leaves in. -/
def keeps (p : Param) (range : Option (Int × Int)) (h : Hit) : Bool :=
  (p.ids.isEmpty || p.ids.contains h.id) &&
    match range with
    | none => true
    | some (lo, hi) => decide (lo ≤ h.id) && decide (h.id < hi)

/-- `DocumentIndex::Search`, `document/document_index.cc:393-446`.  `none`: an error. -/
def Index.search (L : Lib) (x : Index) (p : Param) (range : Option (Int × Int)) : Option (List Hit) :=
  if x.destroyed then none
  else if !p.unlimited && p.topN == 0 then none
  else if p.query.isEmpty then none
  else
    let all := (L.rank p.query x.docs).filter (keeps p range)
    some (if p.unlimited then all else all.take p.topN)

/-- `DocumentIndex::Delete`, `document/document_index.cc:349-391`.  `fails`: the library fails. -/
def Index.delete (x : Index) (ids : List Int) (fails : Bool) : Index × Bool :=
  if ids = [] then (x, true)
  else if x.destroyed then (x, false)
  else if ids.any (fun i => decide (i < 0) || decide (2 ^ 63 - 1 ≤ i)) then (x, false)
  else if fails then (x, false)
  else ({ x with docs := x.docs.filter (fun d => !ids.contains d.1) }, true)

/-- `DocumentIndex::Add`, `document/document_index.cc:232-347`: documents without fields are passed
over (here: empty ones).  If the library fails nothing is kept (in the code what was added
before stays uncommitted). -/
def Index.add (x : Index) (ds : List Doc) (fails : Bool) : Index × Bool :=
  if ds = [] then (x, true)
  else if x.destroyed then (x, false)
  else if fails then (x, false)
  else ({ x with docs := x.docs ++ ds.filter (fun d => !d.2.isEmpty) }, true)

/-- `DocumentIndex::Upsert`, `document/document_index.cc:211-230`. -/
def Index.upsert (x : Index) (ds : List Doc) (fd fa : Bool) : Index × Bool :=
  if ds = [] then (x, true)
  else
    let r := x.delete (ds.map (·.1)) fd
    if r.2 then r.1.add ds fa else (r.1, false)

/-- `DocumentIndexWrapper`: own, shared and sibling index.  (In the code the pointers may be to the
index of another region; here the wrapper has its own copy, and what is done to the shared index
through the other region is not followed.) -/
structure Wrapper where
  own : Option Index := none
  share : Option Index := none
  sibling : Option Index := none
  ready : Bool := false
deriving DecidableEq, Repr

/-- `GetDocumentIndex`, `document/document_index.cc:800-808`. -/
def Wrapper.index (w : Wrapper) : Option Index :=
  match w.share with
  | some x => some x
  | none => w.own

/-- Put back what `Wrapper.index` gave. -/
def Wrapper.setIndex (w : Wrapper) (x : Index) : Wrapper :=
  match w.share with
  | some _ => { w with share := some x }
  | none => { w with own := some x }

/-- `FilterDocumentWithId`, `FilterDocumentId`, `document/document_index.cc:928-981`. -/
def inside (x : Index) (i : Int) : Bool := decide (x.lo ≤ i) && decide (i < x.hi)

/-- What the library does in a write of the wrapper: whether it fails at the deletion and at the
addition in the sibling, and in the index. -/
structure Fails where
  sd : Bool := false
  sa : Bool := false
  d : Bool := false
  a : Bool := false
  undo : Bool := false

/-- `Upsert` or `Add` of an index. -/
def Index.write (up : Bool) (x : Index) (ds : List Doc) (fd fa : Bool) : Index × Bool :=
  if up then x.upsert ds fd fa else x.add ds fa

/-- What `FilterDocumentWithId` leaves of its argument: the documents it gives are moved out,
`document/document_index.cc:961-981`. -/
def movedOut (s : Index) (ds : List Doc) : List Doc := ds.map (fun d => if inside s d.1 then (d.1, []) else d)

/-- `DocumentIndexWrapper::Upsert` and `Add`, `document/document_index.cc:983-1063`. -/
def Wrapper.write (up : Bool) (w : Wrapper) (ds : List Doc) (f : Fails) : Wrapper × Bool :=
  if !w.ready then (w, false)
  else match w.index with
    | none => (w, false)
    | some x =>
      match w.sibling with
      | none =>
        let r := x.write up ds f.d f.a
        (w.setIndex r.1, r.2)
      | some s =>
        let rs := s.write up (ds.filter (fun d => inside s d.1)) f.sd f.sa
        if !rs.2 then ({ w with sibling := some rs.1 }, false)
        else
          let r := x.write up ((movedOut s ds).filter (fun d => inside x d.1)) f.d f.a
          if !r.2 then
            ({ w.setIndex r.1 with
                sibling := some (rs.1.delete ((ds.filter (fun d => inside s d.1)).map (·.1)) f.undo).1 }, false)
          else ({ w.setIndex r.1 with sibling := some rs.1 }, true)

/-- `DocumentIndexWrapper::Delete`, `document/document_index.cc:1065-1097`. -/
def Wrapper.delete (w : Wrapper) (ids : List Int) (f : Fails) : Wrapper × Bool :=
  if !w.ready then (w, false)
  else match w.index with
    | none => (w, false)
    | some x =>
      match w.sibling with
      | none =>
        let r := x.delete ids f.d
        (w.setIndex r.1, r.2)
      | some s =>
        let rs := s.delete (ids.filter (inside s)) f.sd
        if !rs.2 then ({ w with sibling := some rs.1 }, false)
        else
          let r := x.delete (ids.filter (inside x)) f.d
          ({ w.setIndex r.1 with sibling := some rs.1 }, r.2)

/-- The merge of `MergeSearchResult`, `document/document_index.cc:1118-1157`. -/
def mergeTop : Nat → List Hit → List Hit → List Hit
  | 0, _, _ => []
  | k + 1, a :: l, b :: m =>
    if b.score < a.score then a :: mergeTop k l (b :: m) else b :: mergeTop k (a :: l) m
  | k + 1, [], m => m.take (k + 1)
  | k + 1, l, [] => l.take (k + 1)

/-- Insertion by id, an equal id being replaced. -/
def insId (h : Hit) : List Hit → List Hit
  | [] => [h]
  | q :: l => if h.id < q.id then h :: q :: l else if h.id = q.id then h :: l else q :: insId h l

/-- `std::sort` and `std::unique` by id, `document/document_index.cc:1102-1117`.  (Of several hits of
one id the code keeps any, here the first.) -/
def mergeAll (l m : List Hit) : List Hit := (l ++ m).foldr insId []

/-- `MergeSearchResult`, `document/document_index.cc:1099-1157`. -/
def merge (topN : Nat) (l m : List Hit) : List Hit := if topN = 0 then mergeAll l m else mergeTop topN l m

/-- `DocumentIndexWrapper::Search`, `document/document_index.cc:1159-1234`, for a region with the ids
from `lo` to below `hi`. -/
def Wrapper.search (L : Lib) (w : Wrapper) (lo hi : Int) (p : Param) : Option (List Hit) :=
  if !w.ready then none
  else match w.index with
    | none => none
    | some x =>
      match w.sibling with
      | some s =>
        match s.search L p none, x.search L p none with
        | some l, some m => some (merge p.topN l m)
        | _, _ => none
      | none => if x.lo = lo ∧ x.hi = hi then x.search L p none else x.search L p (some (lo, hi))

/-- `SetShareDocumentIndex`, `document/document_index.cc:815-830`, as called for the child of a split
with the parent's own index (`handler/raft_apply_handler.cc:417-421`, `674-678`): the index is one
object, marked as destroyed for both. -/
def split (speedup : Bool) (parent child : Wrapper) : Wrapper × Wrapper :=
  match parent.own with
  | none => (parent, child)
  | some x =>
    ({ parent with own := some { x with destroyed := x.destroyed || !speedup } },
     { child with share := some { x with destroyed := x.destroyed || !speedup }, ready := true })

/-- `SetSiblingDocumentIndex`, `document/document_index.cc:837-847`, as called for the target of a
merge with the source's own index (`handler/raft_apply_handler.cc:1048-1057`). -/
def mergeInto (speedup : Bool) (source target : Wrapper) : Wrapper :=
  match source.own with
  | none => target
  | some x => { target with sibling := some { x with destroyed := x.destroyed || !speedup } }

/-! ## The documents of the hits -/

structure Res where
  hit : Hit
  data : Option Bytes
deriving DecidableEq, Repr

/-- The loop of `SearchDocument`, `document/document_reader.cc:106-117`: `read` is `KvGet` of the
document at the time of the request (`none`: not found, or expired).  The results stand as they are
when a document is not found. -/
def fill (read : Int → Option Bytes) : List Hit → List Res × Bool
  | [] => ([], true)
  | h :: l =>
    match read h.id with
    | none => ((h :: l).map (fun h => ⟨h, none⟩), false)
    | some d =>
      let r := fill read l
      (⟨h, some d⟩ :: r.1, r.2)

/-- `SearchDocument`, `document/document_reader.cc:85-120`, after the search. -/
def found (p : Param) (read : Int → Option Bytes) (l : List Hit) : List Res × Bool :=
  if p.data then fill read l else (l.map (fun h => ⟨h, none⟩), true)

/-- `DocumentSearch`: reader (`document/document_reader.cc:85-132`) and `Storage::DocumentSearch`
(`engine/storage.cc:1406-1426`), where "not found" becomes success.  `none`: an error. -/
def documentSearch (L : Lib) (w : Wrapper) (lo hi : Int) (p : Param) (read : Int → Option Bytes) : Option (List Res) :=
  match w.search L lo hi p with
  | none => none
  | some l => some (found p read l).1

/-! ## Searches in pages -/

/-- `DocumentSearchAllStreamState::Batch`, `document/document_reader.cc:382-395`, with the number and
size of the results so far: the page, and what is left. -/
def batch (limit maxSize : Nat) (size : Res → Nat) : List Res → Nat → Nat → List Res × List Res
  | [], _, _ => ([], [])
  | r :: l, c, b =>
    if c < limit ∧ b < maxSize then
      let x := batch limit maxSize size l (c + 1) (b + size r)
      (r :: x.1, x.2)
    else ([], r :: l)

/-- The first request of a `DocumentSearchAll`, `document/document_reader.cc:134-154`,
`engine/storage.cc:1428-1462`: results, `has_more`, and what the stream is left with (`none`: no
state).  If a document is not found there is no state, no result and `has_more` is as the service
set it, false. -/
def searchAll (L : Lib) (w : Wrapper) (lo hi : Int) (p : Param) (read : Int → Option Bytes) (limit maxSize : Nat)
    (size : Res → Nat) : Option (List Res × Bool × Option (List Res)) :=
  match w.search L lo hi p with
  | none => none
  | some l =>
    let r := found p read l
    if r.2 then
      let x := batch limit maxSize size r.1 0 0
      some (x.1, !x.2.isEmpty, some x.2)
    else some ([], false, none)

/-- The pages of the requests that follow, as long as there is more: each page with its `has_more`. -/
def pages (limit maxSize : Nat) (size : Res → Nat) : Nat → List Res → List (List Res × Bool)
  | 0, _ => []
  | n + 1, l =>
    let x := batch limit maxSize size l 0 0
    (x.1, !x.2.isEmpty) :: (if x.2 = [] then [] else pages limit maxSize size n x.2)

end Verif.DocSearch
