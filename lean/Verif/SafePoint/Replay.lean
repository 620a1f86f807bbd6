import Verif.SafePoint.Model
/-!
Lemmas on applying increments: to the numbers, to the tenants, in full, in part and twice.
-/
namespace Verif.SafePoint

theorem put_same {α : Type} [DecidableEq α] {β : Type} (f : α → β) (a : α) (b : β) :
    put f a b a = b := by simp [put]

theorem put_other {α : Type} [DecidableEq α] {β : Type} (f : α → β) {a x : α} (b : β) (h : x ≠ a) :
    put f a b x = f x := by simp [put, h]

theorem put_self {α : Type} [DecidableEq α] {β : Type} (f : α → β) (a : α) : put f a (f a) = f := by
  funext x; by_cases h : x = a
  · subst h; simp [put]
  · simp [put, h]

/-! ### The numbers -/

theorem raise_get (m : Kind → Option Int) (k j : Kind) (v : Int) :
    raise m k v j = if j = k then
      (match m k with | none => some v | some x => some (if x < v then v else x)) else m j := by
  unfold raise
  rcases hm : m k with _ | x
  · simp only [put]
  · dsimp only
    by_cases hx : x < v
    · simp only [hx, if_true, put]
    · simp only [hx, if_false]
      by_cases hj : j = k
      · subst hj; simp [hm]
      · simp [hj]

/-- All numbers are positive and asked for. -/
def OkMap (A : Kind → Int → Int → Prop) (m : Kind → Option Int) : Prop :=
  ∀ k v, m k = some v → 0 < v ∧ A k 0 v

def OkIds (A : Kind → Int → Int → Prop) (l : List (Kind × Int)) : Prop :=
  ∀ k v, (k, v) ∈ l → 0 < v ∧ A k 0 v

theorem OkMap.raise {A m k v} (h : OkMap A m) (hv : 0 < v ∧ A k 0 v) : OkMap A (raise m k v) := by
  intro j w hw
  rw [raise_get] at hw
  by_cases hj : j = k
  · subst hj
    rw [if_pos rfl] at hw
    rcases hm : m j with _ | x
    · simp only [hm, Option.some.injEq] at hw; subst hw; exact hv
    · simp only [hm, Option.some.injEq] at hw
      by_cases hx : x < v
      · simp only [hx, if_true] at hw; subst hw; exact hv
      · simp only [hx, if_false] at hw; subst hw; exact h _ _ hm
  · rw [if_neg hj] at hw; exact h _ _ hw

theorem OkMap.applyIds {A l} : ∀ {m}, OkMap A m → OkIds A l → OkMap A (applyIds m l) := by
  induction l with
  | nil => intro m h _; exact h
  | cons p l ih =>
    intro m h hl
    exact ih (OkMap.raise h (hl p.1 p.2 (by simp))) (fun k v hkv => hl k v (by simp [hkv]))

theorem raise_le {A m k v} (h : OkMap A m) (hv : 0 < v) (j : Kind) :
    (m j).getD 0 ≤ (raise m k v j).getD 0 := by
  rw [raise_get]
  by_cases hj : j = k
  · subst hj
    rw [if_pos rfl]
    rcases hm : m j with _ | x
    · simp; omega
    · have := (h _ _ hm).1
      simp only [Option.getD_some]
      split <;> omega
  · rw [if_neg hj]; exact Int.le_refl _

theorem raise_ge (m : Kind → Option Int) (k : Kind) (v : Int) : v ≤ (raise m k v k).getD 0 := by
  rw [raise_get, if_pos rfl]
  rcases m k with _ | x
  · simp
  · simp only [Option.getD_some]; split <;> omega

theorem applyIds_le {A l} : ∀ {m}, OkMap A m → OkIds A l → ∀ j,
    (m j).getD 0 ≤ (applyIds m l j).getD 0 := by
  induction l with
  | nil => intro m _ _ j; exact Int.le_refl _
  | cons p l ih =>
    intro m h hl j
    have hp := hl p.1 p.2 (by simp)
    exact Int.le_trans (raise_le h hp.1 j)
      (ih (OkMap.raise h hp) (fun k v hkv => hl k v (by simp [hkv])) j)

theorem applyIds_ge {A l} : ∀ {m}, OkMap A m → OkIds A l → ∀ {k v}, (k, v) ∈ l →
    v ≤ (applyIds m l k).getD 0 := by
  induction l with
  | nil => intro m _ _ k v h; simp at h
  | cons p l ih =>
    intro m h hl k v hkv
    have hp := hl p.1 p.2 (by simp)
    have h' := OkMap.raise h hp
    have hl' : OkIds A l := fun k v hkv => hl k v (by simp [hkv])
    rcases List.mem_cons.1 hkv with he | he
    · subst he
      exact Int.le_trans (raise_ge m k v) (applyIds_le h' hl' k)
    · exact ih h' hl' he

/-! ### The tenants -/

/-- What an increment does to the tenant it names. -/
def act (i : TInc) (o : Option Tenant) : Option Tenant :=
  match i with
  | .create _ name => some ⟨name, 0, 0⟩
  | .update _ t =>
    match o with
    | none => none
    | some cur =>
      match applyUpdate cur t with
      | none => some cur
      | some t' => some t'
  | .delete _ => none

theorem applyTenant_eq (m : Int → Option Tenant) (i : TInc) :
    applyTenant m i = put m i.id (act i (m i.id)) := by
  cases i with
  | create id name => rfl
  | delete id => rfl
  | update id t =>
    simp only [applyTenant, act, TInc.id]
    rcases hm : m id with _ | cur
    · dsimp only
      rw [← hm, put_self]
    · dsimp only
      rcases applyUpdate cur t with _ | t'
      · dsimp only
        rw [← hm, put_self]
      · rfl

theorem applyUpdate_idem (cur inc : Tenant) :
    act (.update 0 inc) (act (.update 0 inc) (some cur)) = act (.update 0 inc) (some cur) := by
  obtain ⟨n, s, r⟩ := cur
  obtain ⟨n', s', r'⟩ := inc
  simp only [act, applyUpdate]
  grind

theorem act_idem (i : TInc) (o : Option Tenant) : act i (act i o) = act i o := by
  cases i with
  | create _ _ => rfl
  | delete _ => rfl
  | update id t =>
    cases o with
    | none => rfl
    | some cur => exact applyUpdate_idem cur t

theorem applyUpdate_mono {cur inc t : Tenant} (h : applyUpdate cur inc = some t) :
    cur.sp ≤ t.sp ∧ cur.rl ≤ t.rl := by
  obtain ⟨n, s, r⟩ := cur
  obtain ⟨n', s', r'⟩ := inc
  obtain ⟨n'', s'', r''⟩ := t
  simp only [applyUpdate] at *
  grind

/-- An update never lowers a point. -/
theorem act_mono {i : TInc} {a : Tenant} {t : Int} (hi : i.remakes t = false) (hid : i.id = t) :
    ∃ b, act i (some a) = some b ∧ a.sp ≤ b.sp ∧ a.rl ≤ b.rl := by
  cases i with
  | create id n => simp [TInc.remakes, TInc.id] at hi hid; exact absurd hid hi
  | delete id => simp [TInc.remakes, TInc.id] at hi hid; exact absurd hid hi
  | update id x =>
    simp only [act]
    rcases hu : applyUpdate a x with _ | b
    · exact ⟨a, rfl, Int.le_refl _, Int.le_refl _⟩
    · exact ⟨b, rfl, applyUpdate_mono hu⟩

def applyTs (m : Int → Option Tenant) (l : List TInc) : Int → Option Tenant := l.foldl applyTenant m

theorem applyTs_append (m l l') : applyTs m (l ++ l') = applyTs (applyTs m l) l' := by
  simp [applyTs]

theorem applyTs_other {l} : ∀ {m : Int → Option Tenant} {t : Int}, (∀ i ∈ l, TInc.id i ≠ t) →
    applyTs m l t = m t := by
  induction l with
  | nil => intros; rfl
  | cons i l ih =>
    intro m t h
    have : applyTs m (i :: l) = applyTs (applyTenant m i) l := rfl
    rw [this, ih (fun j hj => h j (by simp [hj])), applyTenant_eq,
      put_other _ _ (fun e => h i (by simp) e.symm)]

/-- With one increment per tenant, an increment of the list has acted on its tenant. -/
theorem applyTs_mem {l} : ∀ {m : Int → Option Tenant} {i : TInc}, (l.map TInc.id).Nodup → i ∈ l →
    applyTs m l i.id = act i (m i.id) := by
  induction l with
  | nil => intro m i _ h; simp at h
  | cons j l ih =>
    intro m i hn hi
    have e : applyTs m (j :: l) = applyTs (applyTenant m j) l := rfl
    simp only [List.map_cons, List.nodup_cons] at hn
    rcases List.mem_cons.1 hi with hij | hij
    · subst hij
      rw [e, applyTs_other, applyTenant_eq, put_same]
      intro x hx he
      exact hn.1 (List.mem_map.2 ⟨x, hx, he⟩)
    · rw [e, ih hn.2 hij, applyTenant_eq, put_other]
      intro he
      exact hn.1 (List.mem_map.2 ⟨i, hij, he⟩)

/-- Applying an increment again changes nothing. -/
theorem applyTs_again {m : Int → Option Tenant} {l : List TInc} {i : TInc}
    (hn : (l.map TInc.id).Nodup) (hi : i ∈ l) : applyTenant (applyTs m l) i = applyTs m l := by
  rw [applyTenant_eq, applyTs_mem hn hi, act_idem, ← applyTs_mem (m := m) hn hi, put_self]

theorem applyTs_mono {l} : ∀ {m : Int → Option Tenant} {t : Int} {a : Tenant},
    (∀ i ∈ l, TInc.remakes t i = false) → m t = some a →
    ∃ b, applyTs m l t = some b ∧ a.sp ≤ b.sp ∧ a.rl ≤ b.rl := by
  induction l with
  | nil => intro m t a _ h; exact ⟨a, h, Int.le_refl _, Int.le_refl _⟩
  | cons i l ih =>
    intro m t a hl h
    have e : applyTs m (i :: l) = applyTs (applyTenant m i) l := rfl
    have hl' : ∀ i ∈ l, TInc.remakes t i = false := fun j hj => hl j (by simp [hj])
    rw [e]
    by_cases hid : i.id = t
    · obtain ⟨b, hb, h1, h2⟩ := act_mono (a := a) (hl i (by simp)) hid
      have hm : applyTenant m i t = some b := by
        rw [applyTenant_eq, hid, put_same, h, hb]
      obtain ⟨c, hc, h3, h4⟩ := ih hl' hm
      exact ⟨c, hc, Int.le_trans h1 h3, Int.le_trans h2 h4⟩
    · have hm : applyTenant m i t = some a := by
        rw [applyTenant_eq, put_other _ _ (fun e => hid e.symm), h]
      exact ih hl' hm

/-! ### Entries -/

structure Rep where
  ids : Kind → Option Int
  tenants : Int → Option Tenant
  stop : Bool

def Rep.init : Rep := ⟨fun _ => none, fun _ => none, false⟩

def Rep.apply (r : Rep) (e : Inc) : Rep :=
  ⟨applyIds r.ids e.ids, applyTs r.tenants e.tenants, e.stop.getD r.stop⟩

/-- What the first `i` entries of the log make of the empty state. -/
def replay (log : List Inc) (i : Nat) : Rep := (log.take i).foldl Rep.apply Rep.init

theorem replay_succ {log : List Inc} {i : Nat} {e : Inc} (h : log[i]? = some e) :
    replay log (i + 1) = (replay log i).apply e := by
  unfold replay
  rw [List.take_add_one, h]
  simp

theorem replay_append {log l : List Inc} {i : Nat} (h : i ≤ log.length) :
    replay (log ++ l) i = replay log i := by
  unfold replay
  rw [List.take_append_of_le_length h]

/-- A tenant is fine: its points are 0, or positive and asked for. -/
def OkT (A : Kind → Int → Int → Prop) (id : Int) (t : Tenant) : Prop :=
  (t.sp = 0 ∨ (0 < t.sp ∧ A .gc id t.sp)) ∧ (t.rl = 0 ∨ (0 < t.rl ∧ A .rl id t.rl))

def OkTs (A : Kind → Int → Int → Prop) (m : Int → Option Tenant) : Prop :=
  ∀ id t, m id = some t → OkT A id t

def OkTIncs (A : Kind → Int → Int → Prop) (l : List TInc) : Prop :=
  ∀ id t, TInc.update id t ∈ l → OkT A id t

/-- An increment is fine: asked for, and at most one part per tenant. -/
structure OkInc (A : Kind → Int → Int → Prop) (e : Inc) : Prop where
  ids : OkIds A e.ids
  tenants : OkTIncs A e.tenants
  nodup : (e.tenants.map TInc.id).Nodup

theorem OkT.update {A id cur inc t} (hc : OkT A id cur) (hi : OkT A id inc)
    (h : applyUpdate cur inc = some t) : OkT A id t := by
  obtain ⟨n, s, r⟩ := cur
  obtain ⟨n', s', r'⟩ := inc
  obtain ⟨n'', s'', r''⟩ := t
  simp only [OkT, applyUpdate] at *
  grind

theorem OkTs.applyTenant {A m i} (hm : OkTs A m) (hi : ∀ id t, i = TInc.update id t → OkT A id t) :
    OkTs A (applyTenant m i) := by
  intro id t h
  rw [applyTenant_eq] at h
  by_cases hid : id = i.id
  · rw [hid, put_same] at h
    rw [hid]
    cases i with
    | create j n => simp only [act, Option.some.injEq] at h; subst h; exact ⟨Or.inl rfl, Or.inl rfl⟩
    | delete j => simp [act] at h
    | update j x =>
      simp only [act, TInc.id] at h ⊢
      rcases hmj : m j with _ | cur
      · simp [hmj] at h
      · simp only [hmj] at h
        rcases hu : applyUpdate cur x with _ | t'
        · simp only [hu, Option.some.injEq] at h
          subst h; exact hm _ _ hmj
        · simp only [hu, Option.some.injEq] at h
          subst h
          exact OkT.update (hm _ _ hmj) (hi j x rfl) hu
  · rw [put_other _ _ hid] at h
    exact hm _ _ h

theorem OkTs.applyTs {A l} : ∀ {m}, OkTs A m → OkTIncs A l → OkTs A (applyTs m l) := by
  induction l with
  | nil => intro m h _; exact h
  | cons i l ih =>
    intro m h hl
    exact ih (OkTs.applyTenant h (fun id t e => hl id t (by simp [e])))
      (fun id t e => hl id t (by simp [e]))

structure OkRep (A : Kind → Int → Int → Prop) (r : Rep) : Prop where
  ids : OkMap A r.ids
  tenants : OkTs A r.tenants

theorem OkRep.apply {A r e} (h : OkRep A r) (he : OkInc A e) : OkRep A (r.apply e) :=
  ⟨h.ids.applyIds he.ids, h.tenants.applyTs he.tenants⟩

theorem OkRep.init {A} : OkRep A Rep.init :=
  ⟨(fun _ _ h => by cases h), (fun _ _ h => by cases h)⟩

def OkLog (A : Kind → Int → Int → Prop) (log : List Inc) : Prop := ∀ e ∈ log, OkInc A e

theorem OkLog.replay {A log} (h : OkLog A log) : ∀ i, OkRep A (replay log i) := by
  intro i
  induction i with
  | zero => exact OkRep.init
  | succ i ih =>
    rcases he : log[i]? with _ | e
    · have hl : log.length ≤ i := List.getElem?_eq_none_iff.1 he
      have : Verif.SafePoint.replay log (i + 1) = Verif.SafePoint.replay log i := by
        unfold Verif.SafePoint.replay
        rw [List.take_of_length_le (by omega), List.take_of_length_le hl]
      rw [this]; exact ih
    · rw [replay_succ he]
      exact ih.apply (h e (List.mem_of_getElem? he))

theorem replay_over {log : List Inc} {i : Nat} (h : log.length ≤ i) :
    replay log (i + 1) = replay log i := by
  unfold replay
  rw [List.take_of_length_le (by omega), List.take_of_length_le h]

theorem replay_ids_mono {A log} (h : OkLog A log) {i j : Nat} (hij : i ≤ j) (k : Kind) :
    ((replay log i).ids k).getD 0 ≤ ((replay log j).ids k).getD 0 := by
  induction hij with
  | refl => exact Int.le_refl _
  | @step j hij ih =>
    refine Int.le_trans ih ?_
    rcases he : log[j]? with _ | e
    · rw [Nat.succ_eq_add_one, replay_over (List.getElem?_eq_none_iff.1 he)]; exact Int.le_refl _
    · rw [Nat.succ_eq_add_one, replay_succ he]
      exact applyIds_le (h.replay j).ids (h e (List.mem_of_getElem? he)).ids k

/-- Entries from number `i` on leave tenant `t` in being. -/
def Keeps (log : List Inc) (i : Nat) (t : Int) : Prop :=
  ∀ j e, i ≤ j → log[j]? = some e → ∀ x ∈ e.tenants, TInc.remakes t x = false

theorem replay_tenants_mono {log : List Inc} {t : Int} {i j : Nat} (hij : i ≤ j)
    (hk : Keeps log i t) {a : Tenant} (ha : (replay log i).tenants t = some a) :
    ∃ b, (replay log j).tenants t = some b ∧ a.sp ≤ b.sp ∧ a.rl ≤ b.rl := by
  induction hij with
  | refl => exact ⟨a, ha, Int.le_refl _, Int.le_refl _⟩
  | @step j hij ih =>
    obtain ⟨b, hb, h1, h2⟩ := ih
    rcases he : log[j]? with _ | e
    · rw [Nat.succ_eq_add_one, replay_over (List.getElem?_eq_none_iff.1 he)]; exact ⟨b, hb, h1, h2⟩
    · rw [Nat.succ_eq_add_one, replay_succ he]
      obtain ⟨c, hc, h3, h4⟩ := applyTs_mono (hk j e hij he) hb
      exact ⟨c, hc, Int.le_trans h1 h3, Int.le_trans h2 h4⟩

end Verif.SafePoint
