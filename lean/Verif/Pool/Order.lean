import Verif.Pool.Inv

/-!
# Queues of tasks: the order in which a caller's tasks are begun, and single regions
-/

namespace Verif.Pool

def Call.hand : Call → List Task
  | .checked t _ => [t]
  | .counted t _ => [t]
  | _ => []

/-- The task a caller has not put into the queue yet. -/
def hand (s : State) (c : Nat) : List Task := (s.calls[c]?.map Call.hand).getD []

/-- A call does not run its task. -/
def Call.far : Call → Bool
  | .idle => true
  | .checked _ h => !h
  | .counted _ h => !h
  | .running _ => false
  | .ran _ => false
  | .pushed => true

structure Ord (s : State) : Prop where
  far : ∀ c ∈ s.calls, c.far = true
  order : ∀ c, ofCaller c s.taken = ofCaller c s.queued ++ hand s c

theorem ofCaller_append (c : Nat) (l l' : List Task) : ofCaller c (l ++ l') = ofCaller c l ++ ofCaller c l' := by
  simp [ofCaller]

theorem far_set {l : List Call} {c : Nat} {x : Call} (h : ∀ c ∈ l, c.far = true) (hx : x.far = true) :
    ∀ c' ∈ l.set c x, c'.far = true := by
  intro c' hc'
  rcases List.mem_or_eq_of_mem_set hc' with h1 | h1
  · exact h c' h1
  · rw [h1]; exact hx

theorem hand_set_ne {s s' : State} {c c' : Nat} {x : Call} (hs : s'.calls = s.calls.set c x) (hne : c ≠ c') :
    hand s' c' = hand s c' := by
  unfold hand
  rw [hs, List.getElem?_set_ne hne]

theorem hand_set_eq {s s' : State} {c : Nat} {a x : Call} (hs : s'.calls = s.calls.set c x) (ha : s.calls[c]? = some a) :
    hand s' c = x.hand := by
  have hlt : c < s.calls.length := by
    rcases Nat.lt_or_ge c s.calls.length with h | h
    · exact h
    · rw [List.getElem?_eq_none h] at ha; cases ha
  unfold hand
  rw [hs, List.getElem?_set_self hlt]
  rfl

theorem ord_init (cfg : Cfg) (m : Nat) : Ord (.init cfg m) where
  far c hc := by
    rw [State.init, List.mem_replicate] at hc
    rw [hc.2]; rfl
  order c := by
    have : hand (.init cfg m) c = [] := by
      unfold hand
      simp only [State.init, List.getElem?_replicate]
      split <;> rfl
    rw [this]
    rfl

theorem ord_step {cfg : Cfg} {m : Nat} {s s' : State} {e : Ev} (hc : cfg.inplace = false) (hi : Inv cfg m s) (ho : Ord s)
    (h : step cfg s e = some s') : Ord s' := by
  cases e with
  | submit c t =>
    simp only [step] at h
    split at h
    · rename_i hci
      cases h
      unfold submit
      split
      · exact ⟨ho.far, ho.order⟩
      · refine ⟨far_set ho.far (by simp [Call.far, hc]), ?_⟩
        intro c'
        simp only [ofCaller_append]
        by_cases e : c = c'
        · subst e
          rw [hand_set_eq (s := s) (a := .idle) rfl hci, ho.order c]
          have : hand s c = [] := by unfold hand; rw [hci]; rfl
          simp [this, ofCaller, Call.hand]
        · rw [hand_set_ne (s := s) rfl e, ho.order c']
          simp [ofCaller, e]
    · cases h
  | count c =>
    simp only [step] at h
    split at h
    · rename_i t b hci
      cases h
      have hb := ho.far _ (List.mem_of_getElem? hci)
      refine ⟨far_set ho.far (by simpa [Call.far] using hb), ?_⟩
      intro c'
      by_cases e : c = c'
      · subst e
        rw [hand_set_eq (s := s) (a := .checked t b) rfl hci]
        have := ho.order c
        unfold hand at this
        rw [hci] at this
        exact this
      · rw [hand_set_ne (s := s) rfl e]
        exact ho.order c'
    · cases h
  | go c =>
    simp only [step] at h
    split at h
    · rename_i t b hci
      cases h
      have hb := ho.far _ (List.mem_of_getElem? hci)
      simp only [Call.far, Bool.not_eq_true'] at hb
      subst hb
      have hown := hi.own c t false (.inr hci)
      refine ⟨far_set ho.far (by rfl), ?_⟩
      intro c'
      simp only [go, Bool.false_eq_true, if_false, ofCaller_append]
      by_cases e : c = c'
      · subst e
        rw [hand_set_eq (s := s) (a := .counted t false) rfl hci]
        have := ho.order c
        unfold hand at this
        rw [hci] at this
        rw [this]
        simp [ofCaller, hown, Call.hand]
      · rw [hand_set_ne (s := s) rfl e, ho.order c']
        have : ¬ t.1 = c' := fun e' => e (hown ▸ e')
        simp [ofCaller, this]
    · cases h
  | finish c =>
    simp only [step] at h
    split at h
    · rename_i t hci
      have hb := ho.far _ (List.mem_of_getElem? hci)
      simp [Call.far] at hb
    · cases h
  | settle c =>
    simp only [step] at h
    split at h
    · rename_i t hci
      have hb := ho.far _ (List.mem_of_getElem? hci)
      simp [Call.far] at hb
    · cases h
  | signal c w =>
    have key : ∀ (hci : s.calls[c]? = some .pushed) (s' : State), s'.calls = s.calls.set c .idle → s'.taken = s.taken →
        s'.queued = s.queued → Ord s' := by
      intro hci s' h1 h2 h3
      refine ⟨by rw [h1]; exact far_set ho.far rfl, ?_⟩
      intro c'
      rw [h2, h3]
      by_cases e : c = c'
      · subst e
        rw [hand_set_eq h1 hci]
        have := ho.order c
        unfold hand at this
        rw [hci] at this
        exact this
      · rw [hand_set_ne h1 e]
        exact ho.order c'
    cases w with
    | none =>
      simp only [step] at h
      split at h
      · rename_i hh
        cases h
        exact key hh.1 _ rfl rfl rfl
      · cases h
    | some w =>
      simp only [step] at h
      split at h
      · rename_i hh
        cases h
        exact key hh.1 _ rfl rfl rfl
      · cases h
  | look w =>
    simp only [step] at h
    split at h
    · cases h
      unfold look
      split
      · exact ⟨ho.far, ho.order⟩
      · exact ⟨ho.far, ho.order⟩
    · cases h
  | wfinish w =>
    simp only [step] at h
    split at h
    · cases h; exact ⟨ho.far, ho.order⟩
    · cases h
  | wsettle w =>
    simp only [step] at h
    split at h
    · cases h; exact ⟨ho.far, ho.order⟩
    · cases h
  | wake w =>
    simp only [step] at h
    split at h
    · cases h; exact ⟨ho.far, ho.order⟩
    · cases h
  | destroy =>
    simp only [step] at h
    cases h; exact ⟨ho.far, ho.order⟩

theorem ord_run {cfg : Cfg} {m : Nat} (hc : cfg.inplace = false) (l : List Ev) {s s' : State} (hi : Inv cfg m s) (ho : Ord s)
    (h : run cfg l s = some s') : Ord s' := by
  induction l generalizing s with
  | nil => cases h; exact ho
  | cons e l ih =>
    simp only [run] at h
    cases hs : step cfg s e with
    | none => rw [hs] at h; cases h
    | some u => rw [hs] at h; exact ih (inv_step hi hs) (ord_step hc hi ho hs) h

end Verif.Pool
