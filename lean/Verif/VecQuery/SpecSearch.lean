import Verif.VecQuery.Spec
import Verif.VecQuery.Search

/-!
# Vector search: specification
-/

namespace Verif.VecQuery

/-- A list of at most `k` of the hits `S`, nearest first, no id twice. -/
structure Listing (k : Nat) (S : Hit → Prop) (res : List Hit) : Prop where
  mem : ∀ h ∈ res, S h
  once : (res.map (·.id)).Nodup
  sorted : res.Pairwise fun a b => a.dist ≤ b.dist
  short : res.length ≤ k

/-- The `k` nearest of the hits `S`, or all if there are fewer: whatever is left out,
there are `k` that are no farther. -/
structure TopK (k : Nat) (S : Hit → Prop) (res : List Hit) : Prop extends Listing k S res where
  best : ∀ h, S h → h ∉ res → res.length = k ∧ ∀ r ∈ res, r.dist ≤ h.dist

/-- One result for each query, of which `R` holds. -/
def Each (qs : List Vec) (R : Vec → List Hit → Prop) (rs : List (List Hit)) : Prop :=
  rs.length = qs.length ∧ ∀ (j : Nat) (q : Vec), qs[j]? = some q → ∃ res, rs[j]? = some res ∧ R q res

/-- The distance of a vector to a query: the number of the library, or one minus it if
greater numbers are nearer. -/
def distance (F : Faiss) (m : Metric) (q v : Vec) : Int :=
  match m with
  | .l2 => F.score m q v
  | .hamming => F.score m q v
  | .ip => F.one - F.score m q v
  | .cosine => F.one - F.score m q v

/-- Of two numbers of the library, the first is at least as near. -/
def Metric.near (m : Metric) (a b : Int) : Prop :=
  match m with
  | .l2 => a ≤ b
  | .hamming => a ≤ b
  | .ip => b ≤ a
  | .cosine => b ≤ a

/-- What is expected of the library for any kind of index: it lists at most `k` of the
vectors it was given, nearest first, none twice, and then places with the label -1. -/
def Faiss.Good (F : Faiss) : Prop :=
  ∀ m L k, (L.map (·.id)).Nodup → (∀ h ∈ L, 0 ≤ h.id) →
    ∃ res pad, F.top m L k = res ++ pad ∧ (∀ h ∈ pad, h.id = -1) ∧
      (∀ h ∈ res, h ∈ L) ∧ (res.map (·.id)).Nodup ∧ res.Pairwise (fun a b => m.near a.dist b.dist) ∧
      res.length ≤ k

/-- What is expected of the library for a flat index: besides, that it misses none that
is nearer; and that a range search lists exactly what is nearer than the radius. -/
structure Faiss.Exact (F : Faiss) : Prop where
  top : ∀ m L k, (L.map (·.id)).Nodup → (∀ h ∈ L, 0 ≤ h.id) →
    ∃ res pad, F.top m L k = res ++ pad ∧ (∀ h ∈ pad, h.id = -1) ∧
      (∀ h ∈ res, h ∈ L) ∧ (res.map (·.id)).Nodup ∧ res.Pairwise (fun a b => m.near a.dist b.dist) ∧
      res.length ≤ k ∧ ∀ h ∈ L, h ∉ res → res.length = k ∧ ∀ r ∈ res, m.near r.dist h.dist
  within : ∀ m L r, (L.map (·.id)).Nodup →
    ((F.within m L r).map (·.id)).Nodup ∧ ∀ h, h ∈ F.within m L r ↔ h ∈ L ∧ ¬ m.near r h.dist

/-- Every task of the thread pool ends, and there is one for each query. -/
def Pool.Fair (P : Pool) (qs : List Vec) : Prop := P.size = 1 ∧ ∀ n i, i < qs.length → i ∈ P.order n

/-- The indexes of a region fit together: no id twice, ids that are not negative, no id
in both, and nothing outside the region but for an index that was built for another
range. -/
structure Wrap.Fits (w : Wrap) (g : Region) : Prop where
  own : (w.own.map (·.1)).Nodup
  pos : ∀ p ∈ w.own, 0 ≤ p.1
  sib : ∀ s, w.sibling = some s → (s.map (·.1)).Nodup ∧ ∀ p ∈ s, 0 ≤ p.1 ∧ p.1 ∉ w.own.map (·.1)
  inside : w.sibling = none → g = w.range → ∀ p ∈ w.own, g.lo ≤ p.1 ∧ p.1 < g.hi
  both : ∀ s, w.sibling = some s → (∀ p ∈ w.own, g.lo ≤ p.1 ∧ p.1 < g.hi) ∧ ∀ p ∈ s, g.lo ≤ p.1 ∧ p.1 < g.hi

/-- The indexes of a region hold vector `v` under `id`. -/
def Wrap.Holds (w : Wrap) (id : Int) (v : Vec) : Prop := (id, v) ∈ w.own ∨ ∃ s, w.sibling = some s ∧ (id, v) ∈ s

/-- The hits among what the indexes of a region hold: of the region, accepted by `A`. -/
def Held (F : Faiss) (m : Metric) (w : Wrap) (g : Region) (A : Int → Prop) (q : Vec) (h : Hit) : Prop :=
  ∃ v, w.Holds h.id v ∧ (g.lo ≤ h.id ∧ h.id < g.hi) ∧ A h.id ∧ h.dist = distance F m q v

/-- The hits among the vectors there are: of the region, accepted by `A`. -/
def Found (F : Faiss) (m : Metric) (ops : List Op) (now : Int) (g : Region) (A : VecIn → Prop) (q : Vec) (h : Hit) : Prop :=
  ∃ ttl v, Shows ops 0 now ttl v ∧ (g.lo ≤ v.id ∧ v.id < g.hi) ∧ A v ∧ h.id = v.id ∧ h.dist = distance F m q v.vec

/-- Writes as an index can follow them: in the order of their timestamps, vectors that
do not expire, no id twice in one request. -/
structure Plain (ops : List Op) : Prop where
  order : ops.Pairwise fun a b => a.ts < b.ts
  forever : ∀ ts ttl vs, Op.add ts ttl vs ∈ ops → ttl = 0
  once : ∀ ts ttl vs, Op.add ts ttl vs ∈ ops → (vs.map (·.id)).Nodup

/-- The indexes of the region hold what the writes of the region, applied one after
another to an index, leave there (when this is so is the subject of C64). -/
def Wrap.Mirrors (w : Wrap) (g : Region) (ops : List Op) : Prop :=
  ∀ id v, g.lo ≤ id → id < g.hi → (w.Holds id v ↔ (id, v) ∈ ixRun ops)

/-- The scalar data a request filters by. -/
def SearchReq.want (r : SearchReq) : Scalar := match r.qs with | [] => [] | q :: _ => q.scalar

/-- A vector is among those a request asks for. -/
def SearchReq.Takes (r : SearchReq) (v : VecIn) : Prop :=
  match r.by_ with
  | .post => Matches r.want v.scalar
  | .pre => Matches r.want v.scalar
  | .ids l neg _ => (neg = true ↔ v.id ∉ l)

/-- There are at most `n` vectors in the region. -/
def AtMost (ops : List Op) (now : Int) (g : Region) (n : Nat) : Prop :=
  ∀ ids : List Int, ids.Nodup → (∀ id ∈ ids, Exists ops 0 now id ∧ g.lo ≤ id ∧ id < g.hi) → ids.length ≤ n

/-- The circumstances of a search: an exact index, a history the service accepts, an
index that is ready and, unless the data is searched by brute force, shows the writes;
for brute force, some vector in the region; a filter that can be compared, or by ids
that are sorted if the client says so. -/
structure Settled (E : Env) (w : Wrap) (g : Region) (ops : List Op) (now : Int) (r : SearchReq) : Prop where
  lib : E.F.Exact
  fair : E.P.Fair (r.qs.map (·.vec))
  valid : Valid E.schema ops
  ready : w.ready = true
  index : r.brute = false → w.Fits g ∧ w.Mirrors g ops ∧ Plain ops
  some_ : r.brute = true → ∃ id, Exists ops 0 now id ∧ g.lo ≤ id ∧ id < g.hi
  queries : r.qs ≠ []
  kept : r.by_ = .post ∨ useFast E.schema r.want = false → ScalarKept ops
  compare : Comparable r.want
  given_ : r.by_ = .pre → r.want ≠ []
  sorted : ∀ l neg, r.by_ = .ids l neg true → l.Pairwise (· ≤ ·)

end Verif.VecQuery
