import Verif.VecSnap.Model

/-!
# C116: the newest snapshot of a vector index is kept and can be loaded
-/

namespace Verif.VecSnap

/-- Saves and downloads one after the other: a job begins when no other is under way (the server may
stop within one). -/
def Serial (s : St) : List Op → Prop
  | [] => True
  | o :: l => (∀ save id ok, o = .check save id ok → ∀ j ∈ s.jobs, j = .done) ∧ Serial (step s o) l

/-- Directories are named once: ids are those of different directories. -/
def Distinct (disk : List Dir) : Prop := disk.Pairwise fun a b => a.1 ≠ b.1

/-! ## Lemmas -/

theorem mem_insert {d x : Dir} : ∀ {l : List Dir}, x ∈ insert d l ↔ x = d ∨ x ∈ l
  | [] => by simp [insert]
  | e :: l => by
    unfold insert
    split
    · simp
    · rw [List.mem_cons, mem_insert (l := l), List.mem_cons]
      constructor
      · rintro (h | h | h)
        · exact Or.inr (Or.inl h)
        · exact Or.inl h
        · exact Or.inr (Or.inr h)
      · rintro (h | h | h)
        · exact Or.inr (Or.inl h)
        · exact Or.inl h
        · exact Or.inr (Or.inr h)

theorem mem_sort {x : Dir} : ∀ {l : List Dir}, x ∈ sort l ↔ x ∈ l
  | [] => Iff.rfl
  | d :: l => by
    rw [sort, mem_insert, mem_sort (l := l), List.mem_cons]

theorem insert_asc {d : Dir} : ∀ {l : List Dir}, l.Pairwise (fun a b => a.1 < b.1) →
    (∀ x ∈ l, x.1 ≠ d.1) → (insert d l).Pairwise fun a b => a.1 < b.1
  | [], _, _ => by simp [insert]
  | e :: l, h, hd => by
    have h' := List.pairwise_cons.mp h
    have hne := hd e List.mem_cons_self
    unfold insert
    split
    · rename_i hle
      refine List.pairwise_cons.mpr ⟨?_, h⟩
      intro x hx
      rcases List.mem_cons.mp hx with rfl | hx
      · omega
      · have := h'.1 x hx
        omega
    · rename_i hle
      refine List.pairwise_cons.mpr
        ⟨?_, insert_asc (l := l) h'.2 fun x hx => hd x (List.mem_cons_of_mem _ hx)⟩
      intro x hx
      rcases mem_insert.mp hx with rfl | hx
      · omega
      · exact h'.1 x hx

theorem sort_asc : ∀ {l : List Dir}, Distinct l → (sort l).Pairwise fun a b => a.1 < b.1
  | [], _ => List.Pairwise.nil
  | d :: l, h => by
    have h' := List.pairwise_cons.mp h
    exact insert_asc (sort_asc (l := l) h'.2) fun x hx => (h'.1 x (mem_sort.mp hx)).symm

/-- What recovering does with directories in ascending order, `disk` being what is there and `mem`
the set so far. -/
theorem fold_take : ∀ (l : List Dir) (disk : List Dir) (mem : List Nat),
    l.Pairwise (fun a b => a.1 < b.1) → (∀ m ∈ mem, ∀ d ∈ l, m < d.1) → mem.length ≤ 1 →
    (∀ d ∈ disk, (d.2 = true ∧ d.1 ∈ mem) ∨ d ∈ l) →
    (∀ m ∈ mem, (m, true) ∈ disk) → (∀ d ∈ l, d ∈ disk) →
    let p := l.foldl take (disk, mem)
    p.2.length ≤ 1 ∧ (∀ m ∈ p.2, (m, true) ∈ p.1) ∧ (∀ d ∈ p.1, d.2 = true ∧ d.1 ∈ p.2) ∧
    (∀ m ∈ p.2, m ∈ mem ∨ (m, true) ∈ l) ∧
    (∀ m ∈ mem, ∃ n ∈ p.2, m ≤ n) ∧ (∀ d ∈ l, d.2 = true → ∃ n ∈ p.2, d.1 ≤ n)
  | [], disk, mem, _, _, hlen, hd, hm, _ => by
    refine ⟨hlen, hm, ?_, fun m h => Or.inl h, fun m h => ⟨m, h, Nat.le_refl _⟩,
      (by intro d h; cases h)⟩
    intro d h
    rcases hd d h with h | h
    · exact h
    · cases h
  | d :: l, disk, mem, hasc, hlt, hlen, hd, hm, hin => by
    have hasc' := List.pairwise_cons.mp hasc
    have hnot : d.1 ∉ mem := fun h => Nat.lt_irrefl _ (hlt _ h d List.mem_cons_self)
    cases hok : d.2 with
    | true =>
      have hd' : d = (d.1, true) := by rw [← hok]
      have e : take (disk, mem) d = (disk.filter fun x => !mem.contains x.1, [d.1]) := by
        simp [take, add, hok, hnot]
      have ih := fold_take l (disk.filter fun x => !mem.contains x.1) [d.1] hasc'.2
        (by
          intro m h x hx
          rw [List.mem_singleton.mp h]
          exact hasc'.1 x hx)
        (by simp)
        (by
          intro x hx
          have hx' := List.mem_filter.mp hx
          rcases hd x hx'.1 with h | h
          · simp [h.2] at hx'
          · rcases List.mem_cons.mp h with rfl | h
            · exact Or.inl ⟨hok, List.mem_singleton.mpr rfl⟩
            · exact Or.inr h)
        (by
          intro m h
          rw [List.mem_singleton.mp h, ← hd', List.mem_filter]
          exact ⟨hin d List.mem_cons_self, by simp [hnot]⟩)
        (by
          intro x hx
          rw [List.mem_filter]
          refine ⟨hin x (List.mem_cons_of_mem _ hx), ?_⟩
          have : x.1 ∉ mem := fun h =>
            Nat.lt_irrefl _ (hlt _ h x (List.mem_cons_of_mem _ hx))
          simp [this])
      rw [List.foldl_cons, e]
      obtain ⟨i1, i2, i3, i4, i5, i6⟩ := ih
      obtain ⟨n, hn, hdn⟩ := i5 d.1 (List.mem_singleton.mpr rfl)
      refine ⟨i1, i2, i3, ?_, ?_, ?_⟩
      · intro m h
        rcases i4 m h with h | h
        · rw [List.mem_singleton.mp h, ← hd']
          exact Or.inr List.mem_cons_self
        · exact Or.inr (List.mem_cons_of_mem _ h)
      · intro m h
        exact ⟨n, hn, Nat.le_trans (Nat.le_of_lt (hlt m h d List.mem_cons_self)) hdn⟩
      · intro x hx hxo
        rcases List.mem_cons.mp hx with rfl | hx
        · exact ⟨n, hn, hdn⟩
        · exact i6 x hx hxo
    | false =>
      have e : take (disk, mem) d = (disk.filter fun x => x.1 != d.1, mem) := by
        simp [take, hok]
      have ih := fold_take l (disk.filter fun x => x.1 != d.1) mem hasc'.2
        (fun m h x hx => hlt m h x (List.mem_cons_of_mem _ hx)) hlen
        (by
          intro x hx
          have hx' := List.mem_filter.mp hx
          rcases hd x hx'.1 with h | h
          · exact Or.inl h
          · rcases List.mem_cons.mp h with rfl | h
            · simp at hx'
            · exact Or.inr h)
        (by
          intro m h
          rw [List.mem_filter]
          refine ⟨hm m h, ?_⟩
          have : m ≠ d.1 := fun he => hnot (he ▸ h)
          simpa using this)
        (by
          intro x hx
          rw [List.mem_filter]
          refine ⟨hin x (List.mem_cons_of_mem _ hx), ?_⟩
          have := hasc'.1 x hx
          have : x.1 ≠ d.1 := by omega
          simpa using this)
      rw [List.foldl_cons, e]
      obtain ⟨i1, i2, i3, i4, i5, i6⟩ := ih
      refine ⟨i1, i2, i3, ?_, i5, ?_⟩
      · intro m h
        rcases i4 m h with h | h
        · exact Or.inl h
        · exact Or.inr (List.mem_cons_of_mem _ h)
      · intro x hx hxo
        rcases List.mem_cons.mp hx with rfl | hx
        · rw [hok] at hxo
          cases hxo
        · exact i6 x hx hxo

/-! ## What holds -/

/-- **C116 (recovery)**.  After a restart, whatever directories are there, the set holds the newest
one that can be read and nothing else, and so does the disk; nothing is held only if none can be
read. -/
theorem C116_recover (disk : List Dir) (h : Distinct disk) :
    ((recover disk).2 = [] ∧ (recover disk).1 = [] ∧ ∀ d ∈ disk, d.2 = false) ∨
    ∃ id, (recover disk).2 = [id] ∧ (id, true) ∈ disk ∧ (id, true) ∈ (recover disk).1 ∧
      (∀ d ∈ (recover disk).1, d = (id, true)) ∧ ∀ d ∈ disk, d.2 = true → d.1 ≤ id := by
  have hf := fold_take (sort disk) disk [] (sort_asc h) (by intro m hm; cases hm) (by simp)
    (fun d hd => Or.inr (mem_sort.mpr hd)) (by intro m hm; cases hm) (fun d hd => mem_sort.mp hd)
  obtain ⟨i1, i2, i3, i4, -, i6⟩ := hf
  change (recover disk).2.length ≤ 1 at i1
  change ∀ m ∈ (recover disk).2, (m, true) ∈ (recover disk).1 at i2
  change ∀ d ∈ (recover disk).1, d.2 = true ∧ d.1 ∈ (recover disk).2 at i3
  change ∀ m ∈ (recover disk).2, m ∈ [] ∨ (m, true) ∈ sort disk at i4
  change ∀ d ∈ sort disk, d.2 = true → ∃ n ∈ (recover disk).2, d.1 ≤ n at i6
  cases hr : (recover disk).2 with
  | nil =>
    rw [hr] at i3 i6
    refine Or.inl ⟨rfl, ?_, ?_⟩
    · cases hp : (recover disk).1 with
      | nil => rfl
      | cons d l =>
        rw [hp] at i3
        cases (i3 d List.mem_cons_self).2
    · intro d hd
      cases hok : d.2 with
      | false => rfl
      | true =>
        obtain ⟨n, hn, -⟩ := i6 d (mem_sort.mpr hd) hok
        cases hn
  | cons id l =>
    rw [hr] at i1 i2 i3 i4 i6
    have hl : l = [] := by
      cases l with
      | nil => rfl
      | cons a b => simp at i1
    subst hl
    refine Or.inr ⟨id, rfl, ?_, i2 id List.mem_cons_self, ?_, ?_⟩
    · rcases i4 id List.mem_cons_self with h | h
      · cases h
      · exact mem_sort.mp h
    · intro d hd
      have := i3 d hd
      obtain ⟨a, b⟩ := d
      simp only [List.mem_singleton] at this
      rw [this.1, this.2]
    · intro d hd hok
      obtain ⟨n, hn, hle⟩ := i6 d (mem_sort.mpr hd) hok
      rw [List.mem_singleton.mp hn] at hle
      exact hle

example : recover [(60, true), (70, false), (50, true)] = ([(60, true)], [60]) := by decide +kernel

/-- What a job under way means for the directories, `a` being the snapshot held. -/
def Ph (disk : List Dir) (a : Option Nat) : Job → Prop
  | .done => disk = a.toList.map fun x => (x, true)
  | .ready save id ok => disk = (a.toList.map fun x => (x, true)) ∧ (∀ x, a = some x → x < id) ∧
      (save = true → ok = true)
  | .named save id ok => disk = (a.toList.map fun x => (x, true)) ++ [(id, ok)] ∧
      (∀ x, a = some x → x < id) ∧ (save = true → ok = true)
  | .added id => a = some id ∧ disk = [(id, true)]

/-- What holds between the steps of jobs that come one after the other. -/
structure Good (s : St) (a : Option Nat) (D : List Job) (j : Job) : Prop where
  mem : s.mem = a.toList
  log : ∀ x, a = some x → s.first ≤ x
  whole : a = none → s.first = 0
  jobs : s.jobs = [] ∧ j = .done ∨ s.jobs = D ++ [j]
  over : ∀ x ∈ D, x = .done
  ph : Ph s.disk a j

theorem Good.act {s : St} {a : Option Nat} {D : List Job} {j x : Job} {i : Nat} (h : Good s a D j)
    (hi : s.jobs[i]? = some x) (hx : x ≠ .done) :
    x = j ∧ ∀ y, s.jobs.set i y = D ++ [y] := by
  rcases h.jobs with ⟨hj, -⟩ | hj
  · rw [hj] at hi
    simp at hi
  · rw [hj] at hi ⊢
    by_cases hlt : i < D.length
    · rw [List.getElem?_append_left hlt] at hi
      exact absurd (h.over x (List.mem_of_getElem? hi)) hx
    · rw [List.getElem?_append_right (by omega)] at hi
      cases hk : i - D.length with
      | zero =>
        have hi' : i = D.length := by omega
        rw [hk] at hi
        refine ⟨by simpa using hi.symm, ?_⟩
        intro y
        rw [hi', List.set_append_right _ _ (Nat.le_refl _)]
        simp
      | succ n =>
        rw [hk] at hi
        simp at hi

theorem Good.load {s : St} {a : Option Nat} {D : List Job} {j : Job} (h : Good s a D j) :
    load s = a := by
  unfold VecSnap.load
  rw [h.mem]
  cases a with
  | none => rfl
  | some x =>
    have h1 := h.log x rfl
    have h2 : (x, true) ∈ s.disk := by
      have hp := h.ph
      cases j with
      | done => rw [show s.disk = _ from hp]; simp
      | ready save id ok => rw [hp.1]; simp
      | named save id ok => rw [hp.1]; simp
      | added id =>
        have h3 := Option.some.inj hp.1
        rw [hp.2, h3]
        simp
    show (if x < s.first then none else if s.disk.contains (x, true) then some x else none) = some x
    rw [if_neg (by omega), if_pos (by simpa using h2)]

theorem recover_one (a : Option Nat) :
    recover (a.toList.map fun x => (x, true)) = (a.toList.map fun x => (x, true), a.toList) := by
  cases a with
  | none => rfl
  | some x => simp [recover, sort, insert, take, add]

theorem recover_two (a : Option Nat) (id : Nat) (ok : Bool) (h : ∀ x, a = some x → x < id) :
    recover ((a.toList.map fun x => (x, true)) ++ [(id, ok)]) =
      if ok then ([(id, true)], [id]) else (a.toList.map fun x => (x, true), a.toList) := by
  cases a with
  | none => cases ok <;> simp [recover, sort, insert, take, add]
  | some x =>
    have hx := h x rfl
    have h1 : x ≤ id := by omega
    have h2 : id ≠ x := by omega
    have h3 : x ≠ id := by omega
    cases ok <;> simp [recover, sort, insert, take, add, h1, h2, h3]

theorem Good.step {s : St} {a : Option Nat} {D : List Job} {j : Job} (h : Good s a D j) (o : Op)
    (hs : ∀ save id ok, o = .check save id ok → ∀ x ∈ s.jobs, x = .done) :
    ∃ b D' j', Good (step s o) b D' j' ∧ ∀ x, a = some x → ∃ y, b = some y ∧ x ≤ y := by
  have hsame : ∀ x, a = some x → ∃ y, a = some y ∧ x ≤ y := fun x hx => ⟨x, hx, Nat.le_refl _⟩
  cases o with
  | check save id ok =>
    simp only [VecSnap.step]
    split
    · exact ⟨a, D, j, h, hsame⟩
    · rename_i he
      have hall := hs save id ok rfl
      have hj : j = .done := by
        rcases h.jobs with ⟨-, hj⟩ | hj
        · exact hj
        · exact hall j (by rw [hj]; simp)
      have hp := h.ph
      rw [hj] at hp
      refine ⟨a, s.jobs, .ready save id (save || ok),
        ⟨h.mem, h.log, h.whole, Or.inr rfl, hall, hp, ?_, ?_⟩, hsame⟩
      · intro x hx
        rw [h.mem, hx] at he
        simpa [exists_] using he
      · intro hsv
        simp [hsv]
  | rename i =>
    simp only [VecSnap.step]
    split
    · rename_i save id ok hi
      obtain ⟨hj, hset⟩ := h.act hi (by simp)
      have hp := h.ph
      rw [← hj] at hp
      obtain ⟨hd, hlt, hsv⟩ := hp
      refine ⟨a, D, .named save id ok,
        ⟨h.mem, h.log, h.whole, Or.inr (hset _), h.over, ?_, hlt, hsv⟩, hsame⟩
      show (s.disk.filter fun d => d.1 != id) ++ [(id, ok)] = _
      rw [hd, List.filter_eq_self.mpr]
      intro d hd'
      cases a with
      | none => simp at hd'
      | some x =>
        have := hlt x rfl
        simp only [Option.toList, List.map_cons, List.map_nil, List.mem_singleton] at hd'
        rw [hd']
        simp only [bne_iff_ne, ne_eq]
        omega
    · exact ⟨a, D, j, h, hsame⟩
  | add i =>
    simp only [VecSnap.step]
    split
    · rename_i save id ok hi
      obtain ⟨hj, hset⟩ := h.act hi (by simp)
      have hp := h.ph
      rw [← hj] at hp
      obtain ⟨hd, hlt, hsv⟩ := hp
      have hnot : id ∉ s.mem := by
        rw [h.mem]
        cases a with
        | none => simp
        | some x =>
          have := hlt x rfl
          simp only [Option.toList, List.mem_singleton]
          omega
      cases ok with
      | true =>
        have ht : take (s.disk, s.mem) (id, true) = ([(id, true)], [id]) := by
          have hc : s.mem.contains id = false := by simpa using hnot
          simp only [take, VecSnap.add, hc]
          rw [h.mem, hd]
          cases a with
          | none => simp
          | some x =>
            have := hlt x rfl
            have h2 : id ≠ x := by omega
            simp [h2]
        rw [ht]
        have hfirst : s.first ≤ id := by
          cases ha : a with
          | none => rw [h.whole ha]; exact Nat.zero_le _
          | some x =>
            have h1 := h.log x ha
            have h2 := hlt x ha
            omega
        refine ⟨some id, D, _, ⟨rfl, ?_, (by intro h; cases h), Or.inr (hset _), h.over, ?_⟩, ?_⟩
        · intro x hx
          rw [← Option.some.inj hx]
          exact hfirst
        · cases save with
          | true =>
            have hc : s.mem.contains id = false := by simpa using hnot
            simp only [hc]
            exact ⟨rfl, rfl⟩
          | false => exact rfl
        · intro x hx
          exact ⟨id, rfl, Nat.le_of_lt (hlt x hx)⟩
      | false =>
        have ht : take (s.disk, s.mem) (id, false) =
            (a.toList.map fun x => (x, true), s.mem) := by
          simp only [take]
          rw [hd]
          cases a with
          | none => simp
          | some x =>
            have := hlt x rfl
            have h2 : x ≠ id := by omega
            simp [h2]
        rw [ht]
        have hc : (save && false && !s.mem.contains id) = false := by simp
        rw [hc]
        exact ⟨a, D, .done, ⟨h.mem, h.log, h.whole, Or.inr (hset _), h.over, rfl⟩, hsame⟩
    · exact ⟨a, D, j, h, hsame⟩
  | truncate i keep =>
    simp only [VecSnap.step]
    split
    · rename_i id hi
      obtain ⟨hj, hset⟩ := h.act hi (by simp)
      have hp := h.ph
      rw [← hj] at hp
      obtain ⟨ha, hd⟩ := hp
      have hl := h.log id ha
      refine ⟨a, D, .done, ⟨h.mem, ?_, ?_, Or.inr (hset _), h.over, ?_⟩, hsame⟩
      · intro x hx
        have : id = x := Option.some.inj (ha.symm.trans hx)
        dsimp only
        omega
      · intro hn
        rw [ha] at hn
        cases hn
      · show s.disk = _
        rw [hd, ha]
        rfl
    · exact ⟨a, D, j, h, hsame⟩
  | restart =>
    simp only [VecSnap.step]
    have hp := h.ph
    have hold : s.disk = (a.toList.map fun x => (x, true)) → ∃ b D' j',
        Good { s with disk := (recover s.disk).1, mem := (recover s.disk).2, jobs := [] } b D' j' ∧
          ∀ x, a = some x → ∃ y, b = some y ∧ x ≤ y := by
      intro hd
      rw [hd, recover_one]
      exact ⟨a, [], .done, ⟨rfl, h.log, h.whole, Or.inl ⟨rfl, rfl⟩, (by intro x hx; cases hx), rfl⟩,
        hsame⟩
    cases j with
    | done => exact hold hp
    | ready save id ok => exact hold hp.1
    | added id =>
      apply hold
      rw [hp.2, hp.1]
      rfl
    | named save id ok =>
      obtain ⟨hd, hlt, hsv⟩ := hp
      rw [hd, recover_two a id ok hlt]
      cases ok with
      | false =>
        exact ⟨a, [], .done,
          ⟨rfl, h.log, h.whole, Or.inl ⟨rfl, rfl⟩, (by intro x hx; cases hx), rfl⟩, hsame⟩
      | true =>
        refine ⟨some id, [], .done,
          ⟨rfl, ?_, (by intro h; cases h), Or.inl ⟨rfl, rfl⟩, (by intro x hx; cases hx), rfl⟩, ?_⟩
        · intro x hx
          rw [← Option.some.inj hx]
          show s.first ≤ id
          cases ha : a with
          | none => rw [h.whole ha]; exact Nat.zero_le _
          | some x =>
            have h1 := h.log x ha
            have h2 := hlt x ha
            omega
        · intro x hx
          exact ⟨id, rfl, Nat.le_of_lt (hlt x hx)⟩

theorem good_exec : ∀ {l : List Op} {s : St} {a : Option Nat} {D : List Job} {j : Job},
    Good s a D j → Serial s l →
    ∃ b D' j', Good (exec s l) b D' j' ∧ ∀ x, a = some x → ∃ y, b = some y ∧ x ≤ y
  | [], _, a, D, j, h, _ => ⟨a, D, j, h, fun x hx => ⟨x, hx, Nat.le_refl _⟩⟩
  | o :: l, s, a, D, j, h, hs => by
    obtain ⟨b, D1, j1, h1, h2⟩ := h.step o hs.1
    obtain ⟨c, D2, j2, h3, h4⟩ := good_exec (l := l) h1 hs.2
    refine ⟨c, D2, j2, h3, ?_⟩
    intro x hx
    obtain ⟨y, hy, hxy⟩ := h2 x hx
    obtain ⟨z, hz, hyz⟩ := h4 y hy
    exact ⟨z, hz, Nat.le_trans hxy hyz⟩

theorem good_init : Good St.init none [] .done :=
  ⟨rfl, (by intro x hx; cases hx), fun _ => rfl, Or.inl ⟨rfl, rfl⟩, (by intro x hx; cases hx), rfl⟩

theorem serial_split : ∀ {l m : List Op} {s : St}, Serial s (l ++ m) →
    Serial s l ∧ Serial (exec s l) m
  | [], _, _, h => ⟨trivial, h⟩
  | _ :: l, _, _, h => by
    obtain ⟨h1, h2⟩ := serial_split (l := l) h.2
    exact ⟨⟨h.1, h1⟩, h2⟩

/-- **C116 (kept)**.  Saves and downloads that come one after the other, with the server stopping
anywhere: once a snapshot can be loaded, it or a newer one can be loaded ever after.  (Missing: jobs
side by side, `C116_race_false`, `C116_over_false`.) -/
theorem C116_kept_partial (l m : List Op) (x : Nat) (h : Serial St.init (l ++ m))
    (hx : load (exec St.init l) = some x) :
    ∃ y, load (exec St.init (l ++ m)) = some y ∧ x ≤ y := by
  obtain ⟨hl, hm⟩ := serial_split h
  obtain ⟨a, D, j, h1, -⟩ := good_exec good_init hl
  obtain ⟨b, D', j', h2, h3⟩ := good_exec h1 hm
  rw [h1.load] at hx
  have e : exec St.init (l ++ m) = exec (exec St.init l) m := by simp [exec]
  rw [e, h2.load]
  exact h3 x hx

example : Serial St.init [.check true 50 true, .rename 0, .add 0, .truncate 0 50,
      .check false 60 true, .rename 1, .restart] ∧
    load (exec St.init [.check true 50 true, .rename 0, .add 0, .truncate 0 50]) = some 50 ∧
    load (exec St.init [.check true 50 true, .rename 0, .add 0, .truncate 0 50,
      .check false 60 true, .rename 1, .restart]) = some 60 := by
  refine ⟨?_, by decide +kernel, by decide +kernel⟩
  refine ⟨?_, ?_, ?_, ?_, ?_, ?_, ?_, trivial⟩ <;> intro save id ok ho <;> cases ho <;>
    decide +kernel

/-- **C116 (saved)**.  A save that comes to its end, no other job being under way, can be loaded: it
or a newer one, also if the server stops before the log is truncated. -/
theorem C116_saved_partial (l : List Op) (id : Nat) (ok : Bool) (h : Serial St.init l)
    (hd : ∀ j ∈ (exec St.init l).jobs, j = .done) :
    ∃ y, id ≤ y ∧
      load (exec (exec St.init l) [.check true id ok, .rename (exec St.init l).jobs.length,
        .add (exec St.init l).jobs.length]) = some y ∧
      load (exec (exec St.init l) [.check true id ok, .rename (exec St.init l).jobs.length,
        .restart]) = some y := by
  obtain ⟨a, D, j, h1, -⟩ := good_exec good_init h
  generalize exec St.init l = s at hd h1
  have hj : j = .done := by
    rcases h1.jobs with ⟨-, hj⟩ | hj
    · exact hj
    · exact hd j (by rw [hj]; simp)
  have hp : s.disk = a.toList.map fun x => (x, true) := by
    have := h1.ph
    rw [hj] at this
    exact this
  by_cases he : exists_ s.mem id = true
  · cases a with
    | none => simp [h1.mem, exists_] at he
    | some x =>
      have hle : id ≤ x := by simpa [h1.mem, exists_] using he
      have e1 : step s (.check true id ok) = s := by simp [step, he]
      have e2 : step s (.rename s.jobs.length) = s := by simp [step]
      have e3 : step s (.add s.jobs.length) = s := by simp [step]
      refine ⟨x, hle, ?_, ?_⟩
      · simp only [exec, List.foldl_cons, List.foldl_nil, e1, e2, e3]
        exact h1.load
      · simp only [exec, List.foldl_cons, List.foldl_nil, e1, e2]
        obtain ⟨b, D', j', h2, h3⟩ := h1.step .restart (by intro _ _ _ h; cases h)
        rw [h2.load]
        simp only [step, hp, recover_one] at h2
        have := h2.mem
        cases b with
        | none => simp at this
        | some y =>
          have : x = y := by simpa using this
          rw [this]
  · have hlt : ∀ x, a = some x → x < id := by
      intro x hx
      rw [h1.mem, hx] at he
      simpa [exists_] using he
    have hnot : s.mem.contains id = false := by
      rw [h1.mem]
      cases a with
      | none => rfl
      | some x =>
        have := hlt x rfl
        have h2 : id ≠ x := by omega
        simp [h2]
    have e1 : step s (.check true id ok) = { s with jobs := s.jobs ++ [.ready true id true] } := by
      simp only [step]
      rw [if_neg he]
      rfl
    have hfil : (s.disk.filter fun d => d.1 != id) = s.disk := by
      rw [List.filter_eq_self]
      intro d hd'
      rw [hp] at hd'
      cases a with
      | none => simp at hd'
      | some x =>
        have := hlt x rfl
        simp only [Option.toList, List.map_cons, List.map_nil, List.mem_singleton] at hd'
        rw [hd']
        simp only [bne_iff_ne, ne_eq]
        omega
    have e2 : step { s with jobs := s.jobs ++ [.ready true id true] } (.rename s.jobs.length) =
        { s with disk := s.disk ++ [(id, true)], jobs := s.jobs ++ [.named true id true] } := by
      simp [step, hfil]
    have hfirst : s.first ≤ id := by
      cases ha : a with
      | none => rw [h1.whole ha]; exact Nat.zero_le _
      | some x =>
        have h2 := h1.log x ha
        have h3 := hlt x ha
        omega
    refine ⟨id, Nat.le_refl _, ?_, ?_⟩
    · simp only [exec, List.foldl_cons, List.foldl_nil, e1, e2]
      have h4 : id ∉ s.mem := by simpa using hnot
      simp [step, take, add, h4, VecSnap.load, Nat.not_lt.mpr hfirst]
    · simp only [exec, List.foldl_cons, List.foldl_nil, e1, e2]
      simp only [step, hp, recover_two a id true hlt]
      simp [VecSnap.load, Nat.not_lt.mpr hfirst]

/-- **C116 (pulling, versions)**.  A replica without a snapshot or with one of an older version of
the region pulls; one with a newer version does not. -/
theorem C116_pull_partial (margin : Nat) (peer : Nat × Nat) (v id : Nat) :
    pulls margin none peer = true ∧ (v < peer.1 → pulls margin (some (v, id)) peer = true) ∧
      (peer.1 < v → pulls margin (some (v, id)) peer = false) := by
  refine ⟨rfl, ?_, ?_⟩
  · intro h
    have h1 : ¬ peer.1 < v := by omega
    have h2 : v ≠ peer.1 := by omega
    simp [pulls, h1, h2]
  · intro h
    simp [pulls, h]

/-- What holds while every job is about the snapshot `x`, whole: the disk has nothing else, and it
is there once a job has named it. -/
structure Same (x : Nat) (s : St) : Prop where
  disk : s.disk = [] ∨ s.disk = [(x, true)]
  mem : s.mem = [] ∨ s.mem = [x] ∧ s.disk = [(x, true)]
  first : s.first ≤ x
  jobs : ∀ j ∈ s.jobs, (∃ b, j = .ready b x true) ∨
    ((∃ b, j = .named b x true) ∨ j = .added x) ∧ s.disk = [(x, true)] ∨ j = .done

theorem Same.step {x : Nat} {s : St} (h : Same x s) (o : Op)
    (ho : ∀ save id ok, o = .check save id ok → id = x ∧ (save || ok) = true) :
    Same x (step s o) ∧ (s.mem = [x] → (VecSnap.step s o).mem = [x]) := by
  obtain ⟨disk, mem, first, jobs⟩ := s
  obtain ⟨h1, h2, h3, h4⟩ := h
  dsimp only at h1 h2 h3 h4
  cases o with
  | check save id ok =>
    obtain ⟨rfl, hk⟩ := ho save id ok rfl
    unfold VecSnap.step
    dsimp only
    split
    · exact ⟨⟨h1, h2, h3, h4⟩, fun h => h⟩
    · refine ⟨⟨h1, h2, h3, fun j hj => ?_⟩, fun h => h⟩
      rcases List.mem_append.1 hj with hj | hj
      · exact h4 j hj
      · rw [List.mem_singleton.1 hj, hk]; exact Or.inl ⟨save, rfl⟩
  | rename i =>
    unfold VecSnap.step
    dsimp only
    split
    · rename_i save id ok hj
      have hid : id = x ∧ ok = true := by
        rcases h4 _ (List.mem_of_getElem? hj) with ⟨b, hb⟩ | ⟨⟨b, hb⟩ | hb, -⟩ | hb <;> cases hb
        exact ⟨rfl, rfl⟩
      obtain ⟨rfl, rfl⟩ := hid
      have hd : (disk.filter fun d => d.1 != id) ++ [(id, true)] = [(id, true)] := by
        rcases h1 with h1 | h1 <;> rw [h1] <;> simp
      refine ⟨⟨Or.inr hd, ?_, h3, fun j hj => ?_⟩, fun h => h⟩
      · rcases h2 with h2 | h2
        · exact Or.inl h2
        · exact Or.inr ⟨h2.1, hd⟩
      · rcases List.mem_or_eq_of_mem_set hj with hj | hj
        · rcases h4 j hj with h | h | h
          · exact Or.inl h
          · exact Or.inr (Or.inl ⟨h.1, hd⟩)
          · exact Or.inr (Or.inr h)
        · exact Or.inr (Or.inl ⟨Or.inl ⟨save, hj⟩, hd⟩)
    · exact ⟨⟨h1, h2, h3, h4⟩, fun h => h⟩
  | add i =>
    unfold VecSnap.step
    dsimp only
    split
    · rename_i save id ok hj
      have hid : (id = x ∧ ok = true) ∧ disk = [(x, true)] := by
        rcases h4 _ (List.mem_of_getElem? hj) with ⟨b, hb⟩ | ⟨⟨b, hb⟩ | hb, hd⟩ | hb <;> cases hb
        exact ⟨⟨rfl, rfl⟩, hd⟩
      obtain ⟨⟨rfl, rfl⟩, rfl⟩ := hid
      have ht : take ([(id, true)], mem) (id, true) = ([(id, true)], [id]) := by
        rcases h2 with h2 | h2
        · rw [h2]; simp [take, add]
        · rw [h2.1]; simp [take, add]
      rw [ht]
      refine ⟨⟨Or.inr rfl, Or.inr ⟨rfl, rfl⟩, h3, fun j hj => ?_⟩, fun _ => rfl⟩
      rcases List.mem_or_eq_of_mem_set hj with hj | hj
      · exact h4 j hj
      · split at hj
        · exact Or.inr (Or.inl ⟨Or.inr hj, rfl⟩)
        · exact Or.inr (Or.inr hj)
    · exact ⟨⟨h1, h2, h3, h4⟩, fun h => h⟩
  | truncate i keep =>
    unfold VecSnap.step
    dsimp only
    split
    · rename_i id hj
      have hid : id = x := by
        rcases h4 _ (List.mem_of_getElem? hj) with ⟨b, hb⟩ | ⟨⟨b, hb⟩ | hb, hd⟩ | hb <;> cases hb
        rfl
      subst hid
      refine ⟨⟨h1, h2, ?_, fun j hj => ?_⟩, fun h => h⟩
      · show max first (min keep id) ≤ id
        omega
      · rcases List.mem_or_eq_of_mem_set hj with hj | hj
        · exact h4 j hj
        · exact Or.inr (Or.inr hj)
    · exact ⟨⟨h1, h2, h3, h4⟩, fun h => h⟩
  | restart =>
    unfold VecSnap.step
    dsimp only
    rcases h1 with rfl | rfl
    · refine ⟨⟨Or.inl rfl, Or.inl rfl, h3, fun j hj => by cases hj⟩, fun h => ?_⟩
      rcases h2 with h2 | h2
      · rw [h2] at h; cases h
      · cases h2.2
    · have hr : recover [(x, true)] = ([(x, true)], [x]) := by
        simp [recover, sort, insert, take, add]
      rw [hr]
      exact ⟨⟨Or.inr rfl, Or.inr ⟨rfl, rfl⟩, h3, fun j hj => by cases hj⟩, fun _ => rfl⟩

theorem Same.exec {x : Nat} : ∀ {l : List Op} {s : St}, Same x s →
    (∀ o ∈ l, ∀ save id ok, o = .check save id ok → id = x ∧ (save || ok) = true) →
    Same x (exec s l) ∧ (s.mem = [x] → (VecSnap.exec s l).mem = [x])
  | [], _, h, _ => ⟨h, fun h => h⟩
  | o :: l, s, h, ho => by
    obtain ⟨a, b⟩ := h.step o (ho o List.mem_cons_self)
    obtain ⟨c, d⟩ := Same.exec (l := l) a (fun o h => ho o (List.mem_cons_of_mem _ h))
    exact ⟨c, fun h => d (b h)⟩

theorem Same.load {x : Nat} {s : St} (h : Same x s) (hm : s.mem = [x]) : load s = some x := by
  rcases h.mem with h2 | h2
  · rw [h2] at hm; cases hm
  · unfold VecSnap.load
    rw [hm, h2.2]
    have := h.first
    simp; omega

/-- **C116** (side by side, in part: jobs about one snapshot, and whole downloads).  However many saves
and downloads of the same snapshot run at the same time, in whatever order their steps come and
wherever the server stops, a snapshot that can be loaded stays so. -/
theorem C116_same_partial (x : Nat) (l m : List Op)
    (h : ∀ o ∈ l ++ m, ∀ save id ok, o = .check save id ok → id = x ∧ (save || ok) = true)
    (hx : load (exec St.init l) = some x) : load (exec St.init (l ++ m)) = some x := by
  have h0 : Same x St.init :=
    ⟨Or.inl rfl, Or.inl rfl, Nat.zero_le _, fun j hj => by cases hj⟩
  obtain ⟨a, -⟩ := h0.exec (fun o ho => h o (List.mem_append_left m ho))
  obtain ⟨b, c⟩ := a.exec (fun o ho => h o (List.mem_append_right l ho))
  have hm : (exec St.init l).mem = [x] := by
    rcases a.mem with h2 | h2
    · unfold load at hx; rw [h2] at hx; cases hx
    · exact h2.1
  rw [show exec St.init (l ++ m) = exec (exec St.init l) m from List.foldl_append ..]
  exact b.load (c hm)

/-- A save and a download of one snapshot, the download last. -/
example : load (exec St.init [.check true 7 true, .check false 7 true, .rename 0, .add 0]) = some 7 ∧
    load (exec St.init ([.check true 7 true, .check false 7 true, .rename 0, .add 0] ++
      [.rename 1, .add 1, .truncate 0 9])) = some 7 := by decide +kernel

/-! ## What does not hold -/

/-- **C116 fails (side by side)**.  A download that passed its check before a save was over removes
the newer snapshot of the save, for which the log was truncated: nothing can be loaded, now or after
a restart. -/
theorem C116_race_false :
    let l := [Op.check false 50 true, .check true 60 true, .rename 1, .add 1, .truncate 1 60]
    load (exec St.init l) = some 60 ∧
      load (exec St.init (l ++ [.rename 0, .add 0])) = none ∧
      load (exec St.init (l ++ [.rename 0, .add 0, .restart])) = none := by
  decide +kernel

/-- **C116 fails (over another)**.  A download whose meta file cannot be read takes the name of the
snapshot of the same entry that a save has just made, and is then removed: the snapshot is lost. -/
theorem C116_over_false :
    let l := [Op.check false 60 false, .check true 60 true, .rename 1, .add 1]
    load (exec St.init l) = some 60 ∧ load (exec St.init (l ++ [.rename 0, .add 0])) = none := by
  decide +kernel

/-- **C116 fails (pulling)**.  Of replicas with a snapshot of the same version, exactly those pull
that need not: one that is behind by more than the margin takes its own for fresh enough, one that
is as new as the peer's, or newer, pulls. -/
theorem C116_pull_false (margin v id peer : Nat) :
    (id + margin < peer → pulls margin (some (v, id)) (v, peer) = false) ∧
      (peer ≤ id → pulls margin (some (v, id)) (v, peer) = true) := by
  refine ⟨?_, ?_⟩
  · intro h
    simp [pulls, h]
  · intro h
    have h1 : ¬ id + margin < peer := by omega
    simp [pulls, h1]

example : pulls 4000 (some (2, 1000)) (2, 900000) = false ∧
    pulls 4000 (some (2, 900000)) (2, 1000) = true := by decide +kernel

end Verif.VecSnap
