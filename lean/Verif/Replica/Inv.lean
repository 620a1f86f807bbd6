import Verif.Replica.Lemmas

/-! The invariant of the replicas of a region, for runs in which the damage named by `okEv` is not done. -/

namespace Verif.Replica

/-- The snapshot's files are all still there. -/
def full (cfs : List Nat) (sn : Snap) : Bool := cfs.all fun c => (sn.files c).isSome

/-- A running replica that would not survive a crash: it would be given its last snapshot again, and
files of it are gone. -/
def fragile (cfs : List Nat) (b : Node) : Bool :=
  match b.inst with
  | none => false
  | some sn => decide (b.saved < sn.index) && !full cfs sn

def isTxnDel : Cmd → Bool
  | .txnDeleteRange _ => true
  | _ => false

/-- What is left out in the theorems: a crash of a replica that does not survive it; log entries sent to
a replica just added, or taken by it as the leader; a snapshot opened by a replica that has not yet applied what its own snapshot
covers; a snapshot older than the replica just added that gets it; a delete range request that comes
without its closure. -/
def okEv (s : Cluster) : Ev → Bool
  | .crash b => match s.nodes[b]? with | some n => !fragile s.cfs n | none => true
  | .propose a _ => match s.nodes[a]? with | some n => !n.blank | none => true
  | .ship _ b => match s.nodes[b]? with | some n => !n.blank | none => true
  | .openSnap a => match s.nodes[a]? with | some n => decide (n.base ≤ n.applied) && !n.blank | none => true
  | .install b i =>
    match s.nodes[b]?, s.sent[i]? with
    | some n, some sn => !(n.blank && decide (sn.version < n.version))
    | _, _ => true
  | .apply b own =>
    match s.nodes[b]? with
    | none => true
    | some n =>
      match s.log[n.pos]? with
      | none => true
      | some e => !(decide (e.version = n.version) && isTxnDel e.cmd && !own)
  | _ => true

def okRun (s : Cluster) : List Ev → Bool
  | [] => true
  | e :: es => okEv s e && okRun (step s e) es

/-- The files of a snapshot hold what the region held after some prefix of the log that reaches at least
to `last`. -/
def GoodSnap (cfs : List Nat) (v : View) (log : List Entry) (sn : Snap) : Prop :=
  sn.last ≤ sn.index ∧ 0 < sn.last ∧ sn.index ≤ log.length ∧
  ∃ n, n ≤ log.length ∧ sn.last ≤ n ∧ sn.version = (S v log n).version ∧ sn.range = (S v log n).range ∧
    ∀ k f, cfs.contains k.1 = true → sn.range.has k.2 = true → sn.files k.1 = some f →
      Touched log sn.version sn.last n k ∨ f k.2 = (S v log n).data k

theorem GoodSnap.append {cfs : List Nat} {v : View} {log : List Entry} {sn : Snap} (es : List Entry)
    (h : GoodSnap cfs v log sn) : GoodSnap cfs v (log ++ es) sn := by
  obtain ⟨h1, h0, h9, n, h2, h3, h4, h5, h6⟩ := h
  have hl : (log ++ es).length = log.length + es.length := List.length_append
  refine ⟨h1, h0, by omega, n, by omega, h3, ?_, ?_, ?_⟩
  · rw [S_append v es h2]; exact h4
  · rw [S_append v es h2]; exact h5
  · intro k f a b c
    rw [S_append v es h2]
    rcases h6 k f a b c with h | h
    · exact .inl (h.append es h2)
    · exact .inr h

/-- Before the snapshot is looked at. -/
def Pre (cfs : List Nat) (v : View) (log : List Entry) (b : Node) (sn : Snap) : Prop :=
  b.version ≤ sn.version ∨ (b.blank = false ∧ ∃ p, Close cfs v log b p)

/-- The data of the column families not in `todo` are the snapshot's, those in `todo` are gone. -/
def Part (cfs : List Nat) (v : View) (log : List Entry) (b : Node) (sn : Snap) (todo : List Nat) : Prop :=
  ∃ n, n ≤ log.length ∧ sn.last ≤ n ∧ sn.version = (S v log n).version ∧ sn.range = (S v log n).range ∧
    (∀ k f, cfs.contains k.1 = true → sn.range.has k.2 = true → sn.files k.1 = some f →
      Touched log sn.version sn.last n k ∨ f k.2 = (S v log n).data k) ∧
    ∀ k : Key, cfs.contains k.1 = true → sn.range.has k.2 = true →
      (todo.contains k.1 = true ∧ b.data k = none) ∨
      (todo.contains k.1 = false ∧ (Touched log sn.version sn.last n k ∨ b.data k = (S v log n).data k))

/-- What holds of a replica, by phase. -/
def StOk (cfs : List Nat) (v : View) (log : List Entry) (b : Node) : Prop :=
  match b.phase with
  | .up => (b.blank = false ∧ Close cfs v log b b.pos) ∨ (b.blank = true ∧ b.base = 0 ∧ b.inst = none)
  | .down =>
    match b.inst with
    | none => (b.blank = false ∧ Close cfs v log b (max b.saved b.base)) ∨ (b.blank = true ∧ b.base = 0)
    | some sn =>
      (b.saved < sn.index ∧ full cfs sn = true ∧ Pre cfs v log b sn) ∨
      (sn.index ≤ b.saved ∧ b.blank = false ∧ Close cfs v log b (max b.saved b.base))
  | .load .check => ∃ sn, b.inst = some sn ∧ full cfs sn = true ∧ b.saved < sn.index ∧ Pre cfs v log b sn
  | .load .wipe =>
    ∃ sn, b.inst = some sn ∧ full cfs sn = true ∧ b.saved < sn.index ∧ b.version = sn.version ∧
      b.range = sn.range
  | .load (.ingest todo) =>
    ∃ sn, b.inst = some sn ∧ full cfs sn = true ∧ b.saved < sn.index ∧ b.version = sn.version ∧
      b.range = sn.range ∧
      todo.Nodup ∧ (∀ c ∈ todo, c ∈ cfs) ∧ Part cfs v log b sn todo
  | .load (.clean _) =>
    ∃ sn, b.inst = some sn ∧ b.blank = false ∧ b.saved < sn.index ∧ Close cfs v log b sn.last
  | .load .done =>
    ∃ sn, b.inst = some sn ∧ b.blank = false ∧ b.saved < sn.index ∧ Close cfs v log b sn.last

structure NodeOk (cfs : List Nat) (v : View) (log : List Entry) (b : Node) : Prop where
  have_le : b.have' ≤ log.length
  base_le : b.base ≤ b.have'
  applied_le : b.phase ≠ .down → b.applied ≤ b.have'
  saved_le : b.saved ≤ b.have'
  saved_applied : b.phase ≠ .down → b.saved ≤ b.applied
  blank0 : b.blank = true → b.saved = 0 ∧ (b.phase ≠ .down → b.applied = 0) ∧
    (b.inst = none → b.have' = 0)
  ver : ∃ n, n ≤ log.length ∧ b.version = (S v log n).version ∧ b.range = (S v log n).range
  inst_ok : ∀ sn, b.inst = some sn → GoodSnap cfs v log sn ∧ b.base = sn.last
  st : StOk cfs v log b

structure Inv (v : View) (s : Cluster) : Prop where
  log : LogOk s.cfs v s.log
  nodup : s.cfs.Nodup
  nodes : ∀ (i : Nat) (b : Node), s.nodes[i]? = some b → NodeOk s.cfs v s.log b
  sent : ∀ (i : Nat) (sn : Snap), s.sent[i]? = some sn → GoodSnap s.cfs v s.log sn ∧ full s.cfs sn = true

theorem Pre.append {cfs : List Nat} {v : View} {log : List Entry} {b : Node} {sn : Snap} (es : List Entry)
    (h : Pre cfs v log b sn) : Pre cfs v (log ++ es) b sn := by
  rcases h with h | ⟨h1, p, h2⟩
  · exact .inl h
  · exact .inr ⟨h1, p, h2.append es⟩

theorem Part.append {cfs : List Nat} {v : View} {log : List Entry} {b : Node} {sn : Snap} {todo : List Nat}
    (es : List Entry) (h : Part cfs v log b sn todo) : Part cfs v (log ++ es) b sn todo := by
  obtain ⟨n, h2, h3, h4, h5, h6, h7⟩ := h
  have hl : (log ++ es).length = log.length + es.length := List.length_append
  refine ⟨n, by omega, h3, ?_, ?_, ?_, ?_⟩
  · rw [S_append v es h2]; exact h4
  · rw [S_append v es h2]; exact h5
  · intro k f a b c
    rw [S_append v es h2]
    rcases h6 k f a b c with h | h
    · exact .inl (h.append es h2)
    · exact .inr h
  · intro k a c
    rw [S_append v es h2]
    rcases h7 k a c with h | ⟨h, h' | h'⟩
    · exact .inl h
    · exact .inr ⟨h, .inl (h'.append es h2)⟩
    · exact .inr ⟨h, .inr h'⟩

theorem StOk.append {cfs : List Nat} {v : View} {log : List Entry} {b : Node} (es : List Entry)
    (h : StOk cfs v log b) : StOk cfs v (log ++ es) b := by
  unfold StOk at *
  cases hp : b.phase with
  | up =>
    rw [hp] at h
    rcases h with ⟨h1, h2⟩ | h
    · exact .inl ⟨h1, h2.append es⟩
    · exact .inr h
  | down =>
    rw [hp] at h
    dsimp only at h ⊢
    cases hi : b.inst with
    | none =>
      rw [hi] at h
      rcases h with ⟨h1, h2⟩ | h
      · exact .inl ⟨h1, h2.append es⟩
      · exact .inr h
    | some sn =>
      rw [hi] at h
      rcases h with ⟨h1, h2, h3⟩ | ⟨h1, h2, h3⟩
      · exact .inl ⟨h1, h2, h3.append es⟩
      · exact .inr ⟨h1, h2, h3.append es⟩
  | load pc =>
    rw [hp] at h
    cases pc with
    | check => obtain ⟨sn, h1, h2, h3, h4⟩ := h; exact ⟨sn, h1, h2, h3, h4.append es⟩
    | wipe => exact h
    | ingest todo =>
      obtain ⟨sn, h1, h2, h3, h4, h5, h6, h7, h8⟩ := h
      exact ⟨sn, h1, h2, h3, h4, h5, h6, h7, h8.append es⟩
    | clean todo => obtain ⟨sn, h1, h2, h3, h4⟩ := h; exact ⟨sn, h1, h2, h3, h4.append es⟩
    | done => obtain ⟨sn, h1, h2, h3, h4⟩ := h; exact ⟨sn, h1, h2, h3, h4.append es⟩

theorem NodeOk.append {cfs : List Nat} {v : View} {log : List Entry} {b : Node} (es : List Entry)
    (h : NodeOk cfs v log b) : NodeOk cfs v (log ++ es) b where
  have_le := by have := h.have_le; rw [List.length_append]; omega
  base_le := h.base_le
  applied_le := h.applied_le
  saved_le := h.saved_le
  saved_applied := h.saved_applied
  blank0 := h.blank0
  ver := by
    obtain ⟨n, h1, h2, h3⟩ := h.ver
    refine ⟨n, by rw [List.length_append]; omega, ?_, ?_⟩ <;> rw [S_append v es h1] <;> assumption
  inst_ok sn hs := ⟨(h.inst_ok sn hs).1.append es, (h.inst_ok sn hs).2⟩
  st := h.st.append es

/-- The state of a replica does not depend on how much of the log it holds. -/
theorem NodeOk.have {cfs : List Nat} {v : View} {log : List Entry} {b : Node} (h : NodeOk cfs v log b)
    (n f : Nat) (h1 : b.have' ≤ n) (h2 : n ≤ log.length) (h3 : b.blank = true → n = b.have') :
    NodeOk cfs v log { b with have' := n, first := f } where
  have_le := h2
  base_le := by have := h.base_le; dsimp only; omega
  applied_le hp := by have := h.applied_le hp; dsimp only; omega
  saved_le := by have := h.saved_le; dsimp only; omega
  saved_applied := h.saved_applied
  blank0 hb := ⟨(h.blank0 hb).1, (h.blank0 hb).2.1, fun hi => by
    dsimp only at hi ⊢; rw [h3 hb]; exact (h.blank0 hb).2.2 hi⟩
  ver := h.ver
  inst_ok := h.inst_ok
  st := h.st

theorem NodeOk.apply {cfs : List Nat} {v : View} {log : List Entry} (hlog : LogOk cfs v log) {b : Node}
    (h : NodeOk cfs v log b) {e : Entry} {own : Bool} (hup : b.phase = .up) (hpos : b.pos < b.have')
    (he : log[b.pos]? = some e)
    (hown : e.version = b.version → (∃ r, e.cmd = .txnDeleteRange r) → own = true) : NodeOk cfs v log (applyEntry b e own) := by
  have hst := h.st
  unfold StOk at hst
  rw [hup] at hst
  dsimp only at hst
  rcases hst with ⟨hb, hc⟩ | ⟨hb, _, hi⟩
  · obtain ⟨a1, a2, a3, a4⟩ := hc.apply hlog he own hown
    have hrest : (applyEntry b e own).have' = b.have' ∧ (applyEntry b e own).saved = b.saved ∧
        (applyEntry b e own).blank = b.blank ∧ (applyEntry b e own).inst = b.inst := by
      unfold applyEntry
      dsimp only
      by_cases hev : e.version = b.version
      · rw [if_neg (by simp [hev])]
        cases e.cmd with
        | split key => dsimp only; split <;> exact ⟨rfl, rfl, rfl, rfl⟩
        | txnDeleteRange r => dsimp only; split <;> exact ⟨rfl, rfl, rfl, rfl⟩
        | _ => exact ⟨rfl, rfl, rfl, rfl⟩
      · rw [if_pos (by simpa using hev)]; exact ⟨rfl, rfl, rfl, rfl⟩
    obtain ⟨b1, b2, b3, b4⟩ := hrest
    have hpge : b.applied ≤ b.pos := by unfold Node.pos; omega
    have hbge : b.base ≤ b.pos := by unfold Node.pos; omega
    refine ⟨?_, ?_, ?_, ?_, ?_, ?_, ?_, ?_, ?_⟩
    · rw [b1]; exact h.have_le
    · rw [a3, b1]; exact h.base_le
    · intro _; rw [a2, b1]; omega
    · rw [b2, b1]; exact h.saved_le
    · intro _; have := h.saved_applied (by rw [hup]; simp); rw [b2, a2]; omega
    · intro hbl; rw [b3, hb] at hbl; cases hbl
    · obtain ⟨n, c1, c2, c3, c4, _⟩ := a4; exact ⟨n, c1, c3, c4⟩
    · rw [b4, a3]; exact h.inst_ok
    · unfold StOk
      rw [a1, hup]
      refine .inl ⟨by rw [b3]; exact hb, ?_⟩
      have : (applyEntry b e own).pos = b.pos + 1 := by unfold Node.pos at *; rw [a2, a3]; omega
      rw [this]; exact a4
  · have := (h.blank0 hb).2.2 hi; omega

end Verif.Replica
