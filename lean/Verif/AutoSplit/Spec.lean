import Verif.AutoSplit.Model

/-!
# Specification of automatic splits and merges (C92, C93, C94)
-/

namespace Verif.AutoSplit
open Verif.Codec

/-- The bytes of some entries. -/
def total (l : List Ent) : Nat := (l.map Ent.size).sum

/-- An entry is a version of the key `k`. -/
def Of (e : Ent) (k : Bytes) : Prop := ∃ ts, ValidTs ts ∧ encodeKey k ts = some e.key

/-- Column families as they are on disk: in the order of the stored keys, each of them a version of
some key. -/
def Stored (cfs : List (List Ent)) : Prop :=
  ∀ cf ∈ cfs, cf.Pairwise (fun a b => a.key < b.key) ∧ ∀ e ∈ cf, ∃ k, Of e k

/-- The part of the entries that lies in a range of keys. -/
def within (start stop : Bytes) (l : List Ent) : List Ent :=
  l.filter (fun e => decide (encodeBytes start ≤ e.key) && decide (e.key < encodeBytes stop))

/-- What a region with a range has. -/
def content (cfs : List (List Ent)) (start stop : Bytes) : List Ent := within start stop cfs.flatten

/-- The versions of a key. -/
def versions (l : List Ent) (k : Bytes) : List Ent :=
  l.filter (fun e => (encodeBytes k).isPrefixOf e.key)

/-- There are `n` or more different stored keys. -/
def AtLeast (n : Nat) (l : List Ent) : Prop :=
  ∃ ks : List Bytes, ks.Nodup ∧ (∀ k ∈ ks, ∃ e ∈ l, e.key = k) ∧ n ≤ ks.length

/-- The region is large. -/
def Large : Policy → List Ent → Prop
  | .half _ max, l => max ≤ total l
  | .size _ max, l => max ≤ total l
  | .keys _ max, l => AtLeast max l

/-- How much lies before the cut, at least. -/
def Policy.lead : Policy → Nat
  | .half chunk _ => chunk
  | .size pos _ => pos
  | .keys num _ => num

/-- What the policy counts, bytes or entries. -/
def Policy.weight : Policy → List Ent → Nat
  | .keys _ _, l => l.length
  | _, l => total l

/-- The number in the metrics of a region that stands for what the policy counts. -/
def Policy.measured : Policy → Reg → Nat
  | .keys _ _, r => r.keys
  | _, r => r.size

/-- The threshold of the policy. -/
def Policy.max : Policy → Nat
  | .half _ max => max
  | .size _ max => max
  | .keys _ max => max

/-- What two regions that are merged may have together, in what the policy counts. -/
def Policy.merged : Policy → Cfg → Nat
  | .keys _ _, c => c.sumKeys
  | _, c => c.sumSize

/-- Settings with which the policy works: samples are smaller than regions, the cut is before the
threshold, also if the entry at the cut is a large one. -/
def Policy.Sane : Policy → List Ent → Prop
  | .half chunk max, _ => 0 < chunk ∧ chunk ≤ max
  | .size pos max, l => 0 < pos ∧ pos ≤ max ∧ ∀ e ∈ l, pos + e.size ≤ max
  | .keys num max, _ => 0 < num ∧ num < max

/-- Nothing speaks against a split of the region. -/
structure Look.Free (n : Look) (version : Nat) : Prop where
  same : n.version = version
  enabled : n.disabled = false ∧ n.tmpDisabled = false
  normal : n.normal = true
  leads : n.leads = true
  rest : n.monoOff = false ∧ n.busy = false

/-- The peers of two regions are on the same stores. -/
def SameStores (a b : Reg) : Prop := a.peers.length = b.peers.length ∧ ∀ p ∈ a.peers, p ∈ b.peers

/-- `a` ends where `b` begins, or the other way round. -/
def Adjacent (a b : Reg) : Prop := a.stop = b.start ∨ a.start = b.stop

/-- Two regions that may become one. -/
structure Alike (a b : Reg) : Prop where
  part : a.part = b.part
  engines : a.storeEngine = b.storeEngine ∧ a.rawEngine = b.rawEngine
  stores : SameStores a b
  valid : a.valid = true ∧ b.valid = true
  leads : a.leads = true

/-- Two regions that are small enough to become one, and have been as they are for long enough. -/
structure Small (c : Cfg) (now : Nat) (a b : Reg) : Prop where
  first : a.size ≤ c.maxSize ∧ a.keys ≤ c.maxKeys
  both : a.size + b.size ≤ c.sumSize ∧ a.keys + b.keys ≤ c.sumKeys
  rest : (a.lastSplit = 0 ∨ a.lastSplit + c.interval ≤ now) ∧ (b.lastSplit = 0 ∨ b.lastSplit + c.interval ≤ now)

/-- Every region in the set has a task. -/
def Chk.Backed (s : Chk) : Prop := ∀ i ∈ s.set, ∃ t ∈ s.tasks, i ∈ t

/-- A task for a split does not end before its region is entered. -/
def Orderly (s : Chk) : List ChkEv → Prop
  | [] => True
  | e :: es => (∀ t, e = .finish t → ∀ i ∈ t, i ∉ s.entering) ∧ ∀ s', s.step e = some s' → Orderly s' es

end Verif.AutoSplit
