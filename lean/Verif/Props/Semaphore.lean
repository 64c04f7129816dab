import Verif.Model.Semaphore

/-! # C309: a semaphore admits no more tasks than it has slots, in turn, and leaves no slot idle -/

set_option linter.unusedSimpArgs false
set_option linter.unusedVariables false

namespace Verif.Semaphore

/-- What holds at every point: `n` slots and `m` releases too many. -/
structure Inv (n m : Nat) (s : State) : Prop where
  count : s.free + s.granted.length + s.inside.length = n + m
  idle : s.free = 0 ∨ s.waiting = []
  sorted : s.waiting.Pairwise (· < ·)
  old : ∀ k ∈ s.waiting, k < s.next

theorem giveBack_inv {n m : Nat} {s : State} (h : s.free + s.granted.length + s.inside.length + 1 = n + m) (hi : s.free = 0 ∨ s.waiting = []) (hs : s.waiting.Pairwise (· < ·))
    (ho : ∀ k ∈ s.waiting, k < s.next) : Inv n m (giveBack s) := by
  unfold giveBack
  split
  · rename_i k ks e
    rw [e] at hi hs ho
    refine ⟨?_, Or.inl ?_, ?_, ?_⟩ <;> dsimp only
    · rw [List.length_append, List.length_singleton]; omega
    · rcases hi with h | h
      · exact h
      · cases h
    · exact (List.pairwise_cons.mp hs).2
    · exact fun j hj => ho j (List.mem_cons_of_mem _ hj)
  · rename_i e
    refine ⟨?_, Or.inr e, ?_, ?_⟩ <;> dsimp only
    · omega
    · exact hs
    · exact ho

theorem length_erase {l : List Nat} {k : Nat} (h : l.contains k = true) : (l.erase k).length + 1 = l.length := by
  have h : k ∈ l := by simpa using h
  rw [List.length_erase_of_mem h]
  have := List.length_pos_of_mem h
  omega

/-- The number of releases too many in a history. -/
def extras (h : List Op) : Nat := h.count .releaseExtra

/-- One for a release too many. -/
def bump : Op → Nat
  | .releaseExtra => 1
  | _ => 0

theorem step_inv {n m : Nat} {s : State} (h : Inv n m s) (op : Op) : Inv n (m + bump op) (step s op) := by
  have hc := h.count
  cases op with
  | acquire =>
    simp only [step, acquire]
    by_cases c : 0 < s.free ∧ s.waiting = []
    · simp only [c, and_self, if_true]
      refine ⟨?_, Or.inr rfl, List.Pairwise.nil, fun k hk => (nomatch hk)⟩
      simp only [List.length_append, List.length_singleton, bump]; omega
    · rw [if_neg c]
      refine ⟨?_, ?_, ?_, ?_⟩ <;> dsimp only
      · simpa [bump] using hc
      · rcases h.idle with h' | h'
        · exact Or.inl h'
        · left; exact Classical.byContradiction fun e => c ⟨by omega, h'⟩
      · rw [List.pairwise_append]
        refine ⟨h.sorted, List.pairwise_singleton _ _, fun a ha b hb => ?_⟩
        rw [List.mem_singleton.mp hb]; exact h.old a ha
      · intro k hk
        rcases List.mem_append.mp hk with hk | hk
        · exact Nat.lt_succ_of_lt (h.old k hk)
        · rw [List.mem_singleton.mp hk]; exact Nat.lt_succ_self _
  | resume k =>
    simp only [step, resume]
    split
    · rename_i c
      have := length_erase c
      refine ⟨?_, h.idle, h.sorted, h.old⟩
      simp only [List.length_append, List.length_singleton, bump]; omega
    · exact ⟨by simpa [bump] using hc, h.idle, h.sorted, h.old⟩
  | cancel k =>
    simp only [step, cancel]
    split
    · rename_i c
      refine ⟨by simpa [bump] using hc, ?_, ?_, ?_⟩ <;> dsimp only
      · rcases h.idle with h' | h'
        · exact Or.inl h'
        · rw [h'] at c; simp at c
      · exact h.sorted.sublist List.erase_sublist
      · exact fun j hj => h.old j (List.mem_of_mem_erase hj)
    · split
      · rename_i c
        have := length_erase c
        exact giveBack_inv (by simp only [bump]; omega) h.idle h.sorted h.old
      · exact ⟨by simpa [bump] using hc, h.idle, h.sorted, h.old⟩
  | release k =>
    simp only [step, release]
    split
    · rename_i c
      have := length_erase c
      exact giveBack_inv (by simp only [bump]; omega) h.idle h.sorted h.old
    · exact ⟨by simpa [bump] using hc, h.idle, h.sorted, h.old⟩
  | releaseExtra =>
    simp only [step]
    exact giveBack_inv (by simp only [bump]; omega) h.idle h.sorted h.old

theorem run_inv {n : Nat} (h : List Op) : ∀ {m : Nat} {s : State}, Inv n m s → Inv n (m + extras h) (run s h) := by
  induction h with
  | nil => intro m s hi; exact hi
  | cons op h ih =>
    intro m s hi
    have := ih (step_inv hi op)
    have e : m + extras (op :: h) = m + bump op + extras h := by
      unfold extras; rw [List.count_cons]; cases op <;> simp [bump] <;> omega
    rw [e]; exact this

theorem init_ok {n : Int} {s : State} (h : init n = .ok s) : 0 ≤ n ∧ s = { free := n.toNat } := by
  unfold init at h
  split at h
  · cases h
  · cases h; exact ⟨by omega, rfl⟩

theorem init_inv {n : Int} {s : State} (h : init n = .ok s) : Inv n.toNat 0 s := by
  obtain ⟨_, rfl⟩ := init_ok h
  exact ⟨by simp, Or.inr rfl, List.Pairwise.nil, fun k hk => (nomatch hk)⟩

/-- **C309.**  A semaphore is made exactly from a number that is not negative; ValueError otherwise. -/
theorem C309_init (n : Int) : ((∃ s, init n = .ok s) ↔ 0 ≤ n) ∧ (n < 0 → init n = .error .valueError) := by
  refine ⟨⟨?_, ?_⟩, fun h => if_pos h⟩
  · rintro ⟨s, h⟩; exact (init_ok h).1
  · intro h; exact ⟨{ free := n.toNat }, if_neg (by omega)⟩

/-- **C309.**  In every history in which only tasks that hold a slot release, at most `n` tasks are inside at any time. -/
theorem C309_bound {n : Int} {s : State} (hs : init n = .ok s) (h : List Op) (hb : Op.releaseExtra ∉ h) (pre : List Op) (hp : pre <+: h) : ((run s pre).inside.length : Int) ≤ n := by
  have e : extras pre = 0 := by
    unfold extras; rw [List.count_eq_zero]; exact fun hm => hb (hp.subset hm)
  have := (run_inv pre (init_inv hs)).count
  rw [e] at this
  have := (init_ok hs).1
  omega

/-- **C309.**  In general every release too many admits one task more, and no further ones: as many as there are slots and releases too many are free, on their way in, or taken. -/
theorem C309_count {n : Int} {s : State} (hs : init n = .ok s) (h : List Op) :
    ((run s h).free + (run s h).granted.length + (run s h).inside.length : Int) = n + h.count .releaseExtra := by
  have := (run_inv h (init_inv hs)).count
  have := (init_ok hs).1
  unfold extras at *
  omega

/-- **C309.**  No slot is idle while a call waits. -/
theorem C309_busy {n : Int} {s : State} (hs : init n = .ok s) (h : List Op) (hw : (run s h).waiting ≠ []) : (run s h).free = 0 := by
  rcases (run_inv h (init_inv hs)).idle with h' | h'
  · exact h'
  · exact absurd h' hw

/-- The calls that are admitted by a step: those that get a slot, at once or from the queue. -/
def admitted (s t : State) : List Nat := (t.granted ++ t.inside).filter (fun k => !(s.granted ++ s.inside).contains k)

/-- **C309.**  Slots are given in turn: when a step admits call `k`, every call made before that is not admitted yet has been cancelled, i.e. does not wait any more afterwards. -/
theorem C309_turn {n : Int} {s : State} (hs : init n = .ok s) (h : List Op) (op : Op) (k : Nat) (hk : k ∈ admitted (run s h) (step (run s h) op)) :
    ∀ j ∈ (step (run s h) op).waiting, k < j := by
  have hi := run_inv h (init_inv hs)
  generalize run s h = u at *
  have give : ∀ v : State, v.waiting = u.waiting → (∀ x ∈ v.granted, x ∈ u.granted) → (∀ x ∈ v.inside, x ∈ u.inside) → k ∈ admitted u (giveBack v) → ∀ j ∈ (giveBack v).waiting, k < j := by
    intro v hw hg hn hk j hj
    unfold giveBack at hk hj
    split at hj
    · rename_i a as e
      rw [e] at hk
      simp only [admitted, List.mem_filter, List.mem_append, List.contains_eq_mem, Bool.not_eq_true', decide_eq_false_iff_not, not_or, List.mem_singleton] at hk
      have : k = a := by
        rcases hk.1 with (h' | h') | h'
        · exact absurd (hg k h') hk.2.1
        · exact h'
        · exact absurd (hn k h') hk.2.2
      have hp := hi.sorted
      rw [← hw, e] at hp
      rw [this]; exact (List.pairwise_cons.mp hp).1 j hj
    · rename_i e
      rw [show (_ : State).waiting = v.waiting from rfl, e] at hj; cases hj
  have none_new : ∀ v : State, (∀ x ∈ v.granted ++ v.inside, x ∈ u.granted ++ u.inside) → k ∉ admitted u v := by
    intro v hv hk
    simp only [admitted, List.mem_filter, List.contains_eq_mem, Bool.not_eq_true', decide_eq_false_iff_not] at hk
    exact hk.2 (hv k hk.1)
  cases op with
  | acquire =>
    simp only [step, acquire] at hk ⊢
    by_cases c : 0 < u.free ∧ u.waiting = []
    · simp only [c, and_self, if_true]; intro j hj; cases hj
    · rw [if_neg c] at hk
      exact absurd hk (none_new _ (fun x hx => hx))
  | resume a =>
    simp only [step, resume] at hk
    split at hk
    · rename_i c
      refine absurd hk (none_new _ (fun x hx => ?_))
      simp only [List.mem_append, List.mem_singleton] at hx ⊢
      rcases hx with h' | h' | h'
      · exact Or.inl (List.mem_of_mem_erase h')
      · exact Or.inr h'
      · left; rw [h']; simpa using c
    · exact absurd hk (none_new _ (fun x hx => hx))
  | cancel a =>
    simp only [step, cancel] at hk ⊢
    by_cases c1 : u.waiting.contains a = true
    · rw [if_pos c1] at hk; exact absurd hk (none_new _ (fun x hx => hx))
    rw [if_neg c1] at hk ⊢
    by_cases c2 : u.granted.contains a = true
    · rw [if_pos c2] at hk ⊢
      exact give _ rfl (fun x hx => List.mem_of_mem_erase hx) (fun x hx => hx) hk
    · rw [if_neg c2] at hk; exact absurd hk (none_new _ (fun x hx => hx))
  | release a =>
    simp only [step, release] at hk ⊢
    by_cases c : u.inside.contains a = true
    · rw [if_pos c] at hk ⊢
      exact give _ rfl (fun x hx => hx) (fun x hx => List.mem_of_mem_erase hx) hk
    · rw [if_neg c] at hk; exact absurd hk (none_new _ (fun x hx => hx))
  | releaseExtra =>
    simp only [step] at hk ⊢
    exact give u rfl (fun x hx => hx) (fun x hx => hx) hk

/-- **C309.**  A call leaves the queue only by getting a slot or by being cancelled. -/
theorem C309_kept (s : State) (op : Op) (k : Nat) (hk : k ∈ s.waiting) : k ∈ (step s op).waiting ∨ k ∈ (step s op).granted ∨ op = .cancel k := by
  have give : ∀ v : State, v.waiting = s.waiting → k ∈ (giveBack v).waiting ∨ k ∈ (giveBack v).granted := by
    intro v e
    unfold giveBack
    rw [← e] at hk
    split
    · rename_i a as e'
      rw [e'] at hk
      rcases List.mem_cons.mp hk with h | h
      · right; simp [h]
      · exact Or.inl h
    · rename_i e'; rw [e'] at hk; cases hk
  cases op with
  | acquire =>
    simp only [step, acquire]
    split
    · rename_i c; rw [c.2] at hk; cases hk
    · exact Or.inl (List.mem_append_left _ hk)
  | resume a => simp only [step, resume]; split <;> exact Or.inl hk
  | cancel a =>
    by_cases e : a = k
    · exact Or.inr (Or.inr (by rw [e]))
    simp only [step, cancel]
    split
    · exact Or.inl ((List.mem_erase_of_ne (Ne.symm e)).mpr hk)
    · split
      · rcases give { s with granted := s.granted.erase a } rfl with h | h
        · exact Or.inl h
        · exact Or.inr (Or.inl h)
      · exact Or.inl hk
  | release a =>
    simp only [step, release]
    split
    · rcases give { s with inside := s.inside.erase a } rfl with h | h
      · exact Or.inl h
      · exact Or.inr (Or.inl h)
    · exact Or.inl hk
  | releaseExtra =>
    rcases give s rfl with h | h
    · exact Or.inl h
    · exact Or.inr (Or.inl h)

/-- Two slots, four calls: two inside, two waiting; the first waiting call is cancelled and a release lets the other one in. -/
example : init 2 = .ok { free := 2 } ∧
    (run { free := 2 } [.acquire, .acquire, .acquire, .acquire]).waiting = [2, 3] ∧
    admitted (run { free := 2 } [.acquire, .acquire, .acquire, .acquire, .acquire, .cancel 2]) (run { free := 2 } [.acquire, .acquire, .acquire, .acquire, .acquire, .cancel 2, .release 0]) = [3] ∧
    (run { free := 2 } [.acquire, .acquire, .acquire, .acquire, .acquire, .cancel 2, .release 0, .cancel 3]).granted = [4] ∧
    (run { free := 2 } [.acquire, .acquire, .acquire, .acquire, .cancel 2, .release 0, .resume 3]).inside = [1, 3] := by decide

/-- The domain of `C309_bound` is needed: after a release by a task without a slot, two tasks are inside a semaphore of one. -/
theorem C309_limit : init 1 = .ok { free := 1 } ∧ (run { free := 1 } [.acquire, .releaseExtra, .acquire]).inside.length = 2 := by decide

end Verif.Semaphore
