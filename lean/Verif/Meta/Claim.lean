/-
Who has a claim on a name: what exists and is not being dropped, and what is being created.

The invariant behind "names are unique", for any kind of object with an id and a name.
-/
namespace Verif.Meta

/-- A name within its tenant or schema. -/
abbrev Key := Int × List UInt8

/-- A change that is on its way. -/
inductive Move where
  | create (id : Int) (key : Key)
  | rename (id : Int) (name : List UInt8)
  | delete (id : Int)
  deriving DecidableEq

/-- The id a creation or a deletion is about. -/
def Move.target : Move → Option Int
  | .create id _ => some id
  | .rename _ _ => none
  | .delete id => some id

/-- The effect of a change. -/
def Move.act (live : Int → Option Key) : Move → Int → Option Key
  | .create id key => fun i => if i = id then some key else live i
  | .rename id n => fun i => if i = id then (live i).map (fun k => (k.1, n)) else live i
  | .delete id => fun i => if i = id then none else live i

/-- `id` has a claim on `key`: it exists and is not being deleted, or it is being created. -/
def Holds (live : Int → Option Key) (ms : List Move) (id : Int) (key : Key) : Prop :=
  (live id = some key ∧ .delete id ∉ ms) ∨ .create id key ∈ ms

/-- The changes on their way fit each other and what exists. -/
structure Fits (live : Int → Option Key) (ms : List Move) : Prop where
  fresh : ∀ id key, .create id key ∈ ms → live id = none
  there : ∀ id, .delete id ∈ ms → (live id).isSome
  same : ∀ id n, .rename id n ∈ ms → ∀ key, live id = some key → key.2 = n
  apart : ∀ id n key, .rename id n ∈ ms → .create id key ∉ ms
  once : (ms.filterMap Move.target).Nodup
  uniq : ∀ id id' key, Holds live ms id key → Holds live ms id' key → id = id'

/-- Everything with a claim on a name is found under it. -/
def Named (live : Int → Option Key) (ms : List Move) (names : Key → Option Int) : Prop :=
  ∀ id key, Holds live ms id key → names key = some id

variable {live : Int → Option Key} {ms ms' : List Move} {names : Key → Option Int}

theorem Named.uniq (h : Named live ms names) (id id' : Int) (key : Key)
    (h1 : Holds live ms id key) (h2 : Holds live ms id' key) : id = id' := by
  have := h id key h1
  rw [h id' key h2] at this
  exact (Option.some.inj this).symm

theorem Holds.perm (p : ms.Perm ms') {id : Int} {key : Key} (h : Holds live ms id key) :
    Holds live ms' id key := by
  unfold Holds at *
  rw [p.mem_iff, p.mem_iff] at h
  exact h

theorem Fits.perm (h : Fits live ms) (p : ms.Perm ms') : Fits live ms' where
  fresh id key hm := h.fresh id key (p.mem_iff.2 hm)
  there id hm := h.there id (p.mem_iff.2 hm)
  same id n hm := h.same id n (p.mem_iff.2 hm)
  apart id n key hm hc := h.apart id n key (p.mem_iff.2 hm) (p.mem_iff.2 hc)
  once := (p.filterMap _).nodup h.once
  uniq id id' key h1 h2 := h.uniq id id' key (h1.perm p.symm) (h2.perm p.symm)

theorem Named.perm (h : Named live ms names) (p : ms.Perm ms') : Named live ms' names :=
  fun id key hh => h id key (hh.perm p.symm)

theorem targets_create (id : Int) (key : Key) (ms : List Move) :
    (Move.create id key :: ms).filterMap Move.target = id :: ms.filterMap Move.target := rfl

theorem targets_delete (id : Int) (ms : List Move) :
    (Move.delete id :: ms).filterMap Move.target = id :: ms.filterMap Move.target := rfl

theorem targets_rename (id : Int) (n : List UInt8) (ms : List Move) :
    (Move.rename id n :: ms).filterMap Move.target = ms.filterMap Move.target := rfl

theorem mem_targets {m : Move} {i : Int} (hm : m ∈ ms) (ht : m.target = some i) :
    i ∈ ms.filterMap Move.target := List.mem_filterMap.2 ⟨m, hm, ht⟩

/-! ## A change is begun -/

theorem Fits.create {id : Int} {key : Key} (h : Fits live ms) (hn : Named live ms names)
    (hl : live id = none) (ht : id ∉ ms.filterMap Move.target) (hr : ∀ n, .rename id n ∉ ms)
    (hk : names key = none) : Fits live (.create id key :: ms) where
  fresh i k hm := by
    rcases List.mem_cons.1 hm with e | hm
    · cases e; exact hl
    · exact h.fresh i k hm
  there i hm := by
    rcases List.mem_cons.1 hm with e | hm
    · cases e
    · exact h.there i hm
  same i n hm := by
    rcases List.mem_cons.1 hm with e | hm
    · cases e
    · exact h.same i n hm
  apart i n k hm hc := by
    rcases List.mem_cons.1 hm with e | hm
    · cases e
    · rcases List.mem_cons.1 hc with e | hc
      · cases e; exact hr n hm
      · exact h.apart i n k hm hc
  once := by
    rw [targets_create]
    exact List.nodup_cons.2 ⟨ht, h.once⟩
  uniq i i' k h1 h2 := by
    have key1 : ∀ j, Holds live (.create id key :: ms) j k → (j = id ∧ k = key) ∨ Holds live ms j k := by
      intro j hj
      rcases hj with ⟨hj, hd⟩ | hc
      · exact Or.inr (Or.inl ⟨hj, fun hm => hd (List.mem_cons_of_mem _ hm)⟩)
      · rcases List.mem_cons.1 hc with e | hc
        · cases e; exact Or.inl ⟨rfl, rfl⟩
        · exact Or.inr (Or.inr hc)
    rcases key1 i h1 with ⟨e1, e2⟩ | g1 <;> rcases key1 i' h2 with ⟨e1', e2'⟩ | g2
    · rw [e1, e1']
    · have := hn i' k g2
      rw [e2, hk] at this
      cases this
    · have := hn i k g1
      rw [e2', hk] at this
      cases this
    · exact h.uniq i i' k g1 g2

theorem Named.create {id : Int} {key : Key} {names' : Key → Option Int} (hn : Named live ms names)
    (hk : names key = none) (h1 : names' key = some id) (h2 : ∀ k, k ≠ key → names' k = names k) :
    Named live (.create id key :: ms) names' := by
  intro i k hh
  rcases hh with ⟨hj, hd⟩ | hc
  · have g := hn i k (Or.inl ⟨hj, fun hm => hd (List.mem_cons_of_mem _ hm)⟩)
    by_cases e : k = key
    · rw [e, hk] at g; cases g
    · rw [h2 k e]; exact g
  · rcases List.mem_cons.1 hc with e | hc
    · cases e; exact h1
    · have g := hn i k (Or.inr hc)
      by_cases e : k = key
      · rw [e, hk] at g; cases g
      · rw [h2 k e]; exact g

theorem Fits.delete {id : Int} (h : Fits live ms) (hl : (live id).isSome)
    (ht : id ∉ ms.filterMap Move.target) : Fits live (.delete id :: ms) where
  fresh i k hm := by
    rcases List.mem_cons.1 hm with e | hm
    · cases e
    · exact h.fresh i k hm
  there i hm := by
    rcases List.mem_cons.1 hm with e | hm
    · cases e; exact hl
    · exact h.there i hm
  same i n hm := by
    rcases List.mem_cons.1 hm with e | hm
    · cases e
    · exact h.same i n hm
  apart i n k hm hc := by
    rcases List.mem_cons.1 hm with e | hm
    · cases e
    · rcases List.mem_cons.1 hc with e | hc
      · cases e
      · exact h.apart i n k hm hc
  once := by
    rw [targets_delete]
    exact List.nodup_cons.2 ⟨ht, h.once⟩
  uniq i i' k h1 h2 := by
    have key1 : ∀ j, Holds live (.delete id :: ms) j k → Holds live ms j k := by
      intro j hj
      rcases hj with ⟨hj, hd⟩ | hc
      · exact Or.inl ⟨hj, fun hm => hd (List.mem_cons_of_mem _ hm)⟩
      · rcases List.mem_cons.1 hc with e | hc
        · cases e
        · exact Or.inr hc
    exact h.uniq i i' k (key1 i h1) (key1 i' h2)

theorem Named.delete {id : Int} {key : Key} {names' : Key → Option Int} (h : Fits live ms)
    (hn : Named live ms names) (hl : live id = some key) (ht : id ∉ ms.filterMap Move.target)
    (h2 : ∀ k, k ≠ key → names' k = names k) :
    Named live (.delete id :: ms) names' := by
  intro i k hh
  have hid : Holds live ms id key := Or.inl ⟨hl, fun hm => ht (mem_targets hm rfl)⟩
  have g : Holds live ms i k ∧ i ≠ id := by
    rcases hh with ⟨hj, hd⟩ | hc
    · exact ⟨Or.inl ⟨hj, fun hm => hd (List.mem_cons_of_mem _ hm)⟩, fun e => hd (e ▸ List.mem_cons_self)⟩
    · rcases List.mem_cons.1 hc with e | hc
      · cases e
      · exact ⟨Or.inr hc, fun e => ht (e ▸ mem_targets hc rfl)⟩
  by_cases e : k = key
  · subst e
    exact absurd (h.uniq i id k g.1 hid) g.2
  · rw [h2 k e]; exact hn i k g.1

theorem Fits.rename {id : Int} {n : List UInt8} {key : Key} (h : Fits live ms) (hl : live id = some key)
    (hk : key.2 = n) : Fits live (.rename id n :: ms) where
  fresh i k hm := by
    rcases List.mem_cons.1 hm with e | hm
    · cases e
    · exact h.fresh i k hm
  there i hm := by
    rcases List.mem_cons.1 hm with e | hm
    · cases e
    · exact h.there i hm
  same i n hm k hk' := by
    rcases List.mem_cons.1 hm with e | hm
    · cases e; rw [hl] at hk'; cases hk'; exact hk
    · exact h.same i n hm k hk'
  apart i n k hm hc := by
    rcases List.mem_cons.1 hc with e | hc
    · cases e
    · rcases List.mem_cons.1 hm with e | hm
      · cases e; have := h.fresh _ _ hc; rw [hl] at this; cases this
      · exact h.apart i n k hm hc
  once := by
    rw [targets_rename]
    exact h.once
  uniq i i' k h1 h2 := by
    have key1 : ∀ j, Holds live (.rename id n :: ms) j k → Holds live ms j k := by
      intro j hj
      rcases hj with ⟨hj, hd⟩ | hc
      · exact Or.inl ⟨hj, fun hm => hd (List.mem_cons_of_mem _ hm)⟩
      · rcases List.mem_cons.1 hc with e | hc
        · cases e
        · exact Or.inr hc
    exact h.uniq i i' k (key1 i h1) (key1 i' h2)

theorem Holds.rename {id : Int} {n : List UInt8} {i : Int} {k : Key} :
    Holds live (.rename id n :: ms) i k ↔ Holds live ms i k := by
  unfold Holds
  simp

theorem Named.rename {id : Int} {n : List UInt8} (hn : Named live ms names) :
    Named live (.rename id n :: ms) names := fun i k hh => hn i k (Holds.rename.1 hh)

/-! ## A change is given up -/

theorem Holds.of_cons {m : Move} (hm : ∀ i, m ≠ .delete i) {i : Int} {k : Key}
    (h : Holds live ms i k) : Holds live (m :: ms) i k := by
  rcases h with ⟨hl, hd⟩ | hc
  · refine Or.inl ⟨hl, fun h => ?_⟩
    rcases List.mem_cons.1 h with e | h
    · exact hm i e.symm
    · exact hd h
  · exact Or.inr (List.mem_cons_of_mem _ hc)

theorem Fits.tail {m : Move} (hm : ∀ i, m ≠ .delete i) (h : Fits live (m :: ms)) : Fits live ms where
  fresh i k hc := h.fresh i k (List.mem_cons_of_mem _ hc)
  there i hc := h.there i (List.mem_cons_of_mem _ hc)
  same i n hc := h.same i n (List.mem_cons_of_mem _ hc)
  apart i n k h1 h2 := h.apart i n k (List.mem_cons_of_mem _ h1) (List.mem_cons_of_mem _ h2)
  once := by
    have := h.once
    rw [List.filterMap_cons] at this
    split at this
    · exact this
    · exact (List.nodup_cons.1 this).2
  uniq i i' k h1 h2 := h.uniq i i' k (h1.of_cons hm) (h2.of_cons hm)

theorem Named.tail {m : Move} (hm : ∀ i, m ≠ .delete i) (h : Named live (m :: ms) names) :
    Named live ms names := fun i k hh => h i k (hh.of_cons hm)

/-- Giving up a creation and freeing its name leaves the claims of the others. -/
theorem Named.free {id : Int} {key : Key} {names' : Key → Option Int}
    (hf : Fits live (.create id key :: ms)) (h : Named live (.create id key :: ms) names)
    (h2 : ∀ k, k ≠ key → names' k = names k) : Named live ms names' := by
  intro i k hh
  have g := hh.of_cons (m := .create id key) nofun
  by_cases e : k = key
  · subst e
    have := hf.uniq i id k g (Or.inr List.mem_cons_self)
    subst this
    rcases hh with ⟨hl, _⟩ | hc
    · have := hf.fresh i k List.mem_cons_self
      rw [hl] at this; cases this
    · have := hf.once
      rw [targets_create] at this
      exact absurd (mem_targets hc rfl) (List.nodup_cons.1 this).1
  · rw [h2 k e]; exact h i k g

/-! ## A change is applied -/

theorem act_create_iff {id : Int} {key : Key} (hf : Fits live (.create id key :: ms)) (i : Int) (k : Key) :
    Holds (Move.act live (.create id key)) ms i k ↔ Holds live (.create id key :: ms) i k := by
  have ht : id ∉ ms.filterMap Move.target := by
    have := hf.once
    rw [targets_create] at this
    exact (List.nodup_cons.1 this).1
  have hl := hf.fresh id key List.mem_cons_self
  constructor
  · rintro (⟨h, hd⟩ | hc)
    · dsimp only [Move.act] at h
      by_cases e : i = id
      · rw [if_pos e] at h; cases h; cases e; exact Or.inr List.mem_cons_self
      · rw [if_neg e] at h
        exact Or.inl ⟨h, by simp [hd]⟩
    · exact Or.inr (List.mem_cons_of_mem _ hc)
  · rintro (⟨h, hd⟩ | hc)
    · refine Or.inl ⟨?_, fun hm => hd (List.mem_cons_of_mem _ hm)⟩
      dsimp only [Move.act]
      by_cases e : i = id
      · rw [e, hl] at h; cases h
      · rw [if_neg e]; exact h
    · rcases List.mem_cons.1 hc with e | hc
      · cases e
        refine Or.inl ⟨by dsimp only [Move.act]; rw [if_pos rfl], fun hm => ht (mem_targets hm rfl)⟩
      · exact Or.inr hc

theorem act_delete_iff {id : Int} (hf : Fits live (.delete id :: ms)) (i : Int) (k : Key) :
    Holds (Move.act live (.delete id)) ms i k ↔ Holds live (.delete id :: ms) i k := by
  have ht : id ∉ ms.filterMap Move.target := by
    have := hf.once
    rw [targets_delete] at this
    exact (List.nodup_cons.1 this).1
  constructor
  · rintro (⟨h, hd⟩ | hc)
    · dsimp only [Move.act] at h
      by_cases e : i = id
      · rw [if_pos e] at h; cases h
      · rw [if_neg e] at h
        exact Or.inl ⟨h, by simp [hd, e]⟩
    · exact Or.inr (List.mem_cons_of_mem _ hc)
  · rintro (⟨h, hd⟩ | hc)
    · refine Or.inl ⟨?_, fun hm => hd (List.mem_cons_of_mem _ hm)⟩
      dsimp only [Move.act]
      by_cases e : i = id
      · exact absurd (e ▸ List.mem_cons_self) hd
      · rw [if_neg e]; exact h
    · rcases List.mem_cons.1 hc with e | hc
      · cases e
      · exact Or.inr hc

theorem act_rename_eq {id : Int} {n : List UInt8} (hf : Fits live (.rename id n :: ms)) :
    Move.act live (.rename id n) = live := by
  funext i
  dsimp only [Move.act]
  by_cases e : i = id
  · rw [if_pos e, e]
    cases h : live id with
    | none => rfl
    | some k =>
      have := hf.same id n List.mem_cons_self k h
      simp [← this]
  · rw [if_neg e]

theorem act_holds_iff {m : Move} (hf : Fits live (m :: ms)) (i : Int) (k : Key) :
    Holds (Move.act live m) ms i k ↔ Holds live (m :: ms) i k := by
  cases m with
  | create id key => exact act_create_iff hf i k
  | delete id => exact act_delete_iff hf i k
  | rename id n => rw [act_rename_eq hf, Holds.rename]

theorem Fits.act {m : Move} (hf : Fits live (m :: ms)) : Fits (Move.act live m) ms where
  fresh i k hc := by
    have h0 := hf.fresh i k (List.mem_cons_of_mem _ hc)
    cases m with
    | rename id n => rw [act_rename_eq hf]; exact h0
    | delete id => dsimp only [Move.act]; split <;> first | rfl | exact h0
    | create id key =>
      dsimp only [Move.act]
      have := hf.once
      rw [targets_create] at this
      rw [if_neg (fun (e : i = id) => (List.nodup_cons.1 this).1 (e ▸ mem_targets hc rfl))]; exact h0
  there i hc := by
    have h0 := hf.there i (List.mem_cons_of_mem _ hc)
    cases m with
    | rename id n => rw [act_rename_eq hf]; exact h0
    | create id key => dsimp only [Move.act]; split <;> first | rfl | exact h0
    | delete id =>
      dsimp only [Move.act]
      have := hf.once
      rw [targets_delete] at this
      rw [if_neg (fun (e : i = id) => (List.nodup_cons.1 this).1 (e ▸ mem_targets hc rfl))]; exact h0
  same i n hc k hk := by
    have h0 := hf.same i n (List.mem_cons_of_mem _ hc)
    cases m with
    | rename id n => rw [act_rename_eq hf] at hk; exact h0 k hk
    | delete id =>
      dsimp only [Move.act] at hk
      split at hk
      · cases hk
      · exact h0 k hk
    | create id key =>
      dsimp only [Move.act] at hk
      split at hk
      · rename_i e
        exact absurd (e ▸ List.mem_cons_self) (hf.apart i n key (List.mem_cons_of_mem _ hc))
      · exact h0 k hk
  apart i n k h1 h2 := hf.apart i n k (List.mem_cons_of_mem _ h1) (List.mem_cons_of_mem _ h2)
  once := by
    have := hf.once
    rw [List.filterMap_cons] at this
    split at this
    · exact this
    · exact (List.nodup_cons.1 this).2
  uniq i i' k h1 h2 := hf.uniq i i' k ((act_holds_iff hf i k).1 h1) ((act_holds_iff hf i' k).1 h2)

theorem Named.act {m : Move} (hf : Fits live (m :: ms)) (h : Named live (m :: ms) names) :
    Named (Move.act live m) ms names := fun i k hh => h i k ((act_holds_iff hf i k).1 hh)

/-- Applying a list of changes. -/
def acts (live : Int → Option Key) (ms : List Move) : Int → Option Key := ms.foldl Move.act live

theorem Fits.acts {ms : List Move} : ∀ {live : Int → Option Key} {ms'}, Fits live (ms ++ ms') →
    Fits (acts live ms) ms' := by
  induction ms with
  | nil => intro live ms' h; exact h
  | cons m ms ih => intro live ms' h; exact ih (Fits.act h)

theorem Named.acts {ms : List Move} : ∀ {live : Int → Option Key} {ms'}, Fits live (ms ++ ms') →
    Named live (ms ++ ms') names → Named (Verif.Meta.acts live ms) ms' names := by
  induction ms with
  | nil => intro live ms' _ h; exact h
  | cons m ms ih => intro live ms' h hn; exact ih (Fits.act h) (Named.act h hn)

/-- Giving up changes none of which is a deletion. -/
theorem Fits.drop {ms : List Move} (hd : ∀ i, .delete i ∉ ms) {ms' : List Move}
    (h : Fits live (ms ++ ms')) : Fits live ms' := by
  induction ms with
  | nil => exact h
  | cons m ms ih =>
    exact ih (fun i hm => hd i (List.mem_cons_of_mem _ hm))
      (Fits.tail (fun i e => hd i (e ▸ List.mem_cons_self)) h)

theorem Named.drop {ms : List Move} (hd : ∀ i, .delete i ∉ ms) {ms' : List Move}
    (h : Named live (ms ++ ms') names) : Named live ms' names := by
  induction ms with
  | nil => exact h
  | cons m ms ih =>
    exact ih (fun i hm => hd i (List.mem_cons_of_mem _ hm))
      (Named.tail (fun i e => hd i (e ▸ List.mem_cons_self)) h)

end Verif.Meta
