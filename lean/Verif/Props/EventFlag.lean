import Verif.Model.EventFlag

/-! # C314: an event releases every task that waits for it, once it is set and not before, and stays set -/

set_option linter.unusedSimpArgs false
set_option linter.unusedVariables false

namespace Verif.EventFlag

/-- The number of calls of `wait` in a history. -/
def waits (h : List Op) : Nat := h.count .wait

/-- Call `k` is cancelled in the history. -/
def Cancelled (h : List Op) (k : Nat) : Prop := Op.cancel k ∈ h

structure Inv (h : List Op) (s : State) : Prop where
  flag : s.flag = true ↔ Op.set ∈ h
  next : s.next = waits h
  idle : s.flag = true → s.waiting = []
  early : s.flag = false → s.ready = [] ∧ s.returned = []
  below : ∀ k ∈ s.waiting ++ s.ready ++ s.returned, k < s.next
  kept : ∀ k < s.next, k ∈ s.waiting ++ s.ready ++ s.returned ∨ Cancelled h k
  nodup : (s.waiting ++ s.ready ++ s.returned).Nodup

theorem init_inv : Inv [] {} := by
  refine ⟨by simp, rfl, fun _ => rfl, fun _ => ⟨rfl, rfl⟩, fun k hk => (nomatch hk), fun k hk => absurd hk (Nat.not_lt_zero _), List.nodup_nil⟩

theorem step_inv {h : List Op} {s : State} (i : Inv h s) (op : Op) : Inv (h ++ [op]) (step s op) := by
  cases op with
  | set =>
    simp only [step, set]
    have p : (([] : List Nat) ++ (s.ready ++ s.waiting) ++ s.returned).Perm (s.waiting ++ s.ready ++ s.returned) := by
      simp only [List.nil_append]; exact List.Perm.append_right _ List.perm_append_comm
    refine ⟨by simp, ?_, fun _ => rfl, fun e => (nomatch e), ?_, ?_, ?_⟩
    · show s.next = _; rw [i.next]; simp [waits]
    · intro k hk; exact i.below k (p.mem_iff.mp hk)
    · intro k hk
      rcases i.kept k hk with h' | h'
      · exact .inl (p.mem_iff.mpr h')
      · exact .inr (List.mem_append_left _ h')
    · exact p.nodup_iff.mpr i.nodup
  | wait =>
    have fresh : s.next ∉ s.waiting ++ s.ready ++ s.returned := fun m => Nat.lt_irrefl _ (i.below _ m)
    simp only [step, wait]
    by_cases f : s.flag = true
    · rw [if_pos f]
      have p : (s.waiting ++ (s.ready ++ [s.next]) ++ s.returned).Perm (s.next :: (s.waiting ++ s.ready ++ s.returned)) := by
        simp only [List.append_assoc, List.singleton_append]
        refine List.Perm.trans (List.Perm.append_left _ List.perm_middle) ?_
        exact List.perm_middle
      refine ⟨?_, ?_, i.idle, ?_, ?_, ?_, ?_⟩
      · show s.flag = true ↔ _; rw [i.flag]; simp
      · show s.next + 1 = _; rw [i.next]; simp [waits]
      · intro e; dsimp only at e; rw [f] at e; cases e
      · intro k hk
        rcases List.mem_cons.mp (p.mem_iff.mp hk) with e | e
        · show k < s.next + 1; omega
        · have := i.below k e; show k < s.next + 1; omega
      · intro k hk
        have hk' : k < s.next + 1 := hk
        by_cases e : k = s.next
        · exact .inl (p.mem_iff.mpr (by simp [e]))
        · rcases i.kept k (by omega) with h' | h'
          · exact .inl (p.mem_iff.mpr (List.mem_cons_of_mem _ h'))
          · exact .inr (List.mem_append_left _ h')
      · exact p.nodup_iff.mpr (List.nodup_cons.mpr ⟨fresh, i.nodup⟩)
    · rw [if_neg f]
      have p : (s.waiting ++ [s.next] ++ s.ready ++ s.returned).Perm (s.next :: (s.waiting ++ s.ready ++ s.returned)) := by
        simp only [List.append_assoc, List.singleton_append]
        exact List.perm_middle
      refine ⟨?_, ?_, ?_, i.early, ?_, ?_, ?_⟩
      · show s.flag = true ↔ _; rw [i.flag]; simp
      · show s.next + 1 = _; rw [i.next]; simp [waits]
      · intro e; exact absurd e f
      · intro k hk
        rcases List.mem_cons.mp (p.mem_iff.mp hk) with e | e
        · show k < s.next + 1; omega
        · have := i.below k e; show k < s.next + 1; omega
      · intro k hk
        have hk' : k < s.next + 1 := hk
        by_cases e : k = s.next
        · exact .inl (p.mem_iff.mpr (by simp [e]))
        · rcases i.kept k (by omega) with h' | h'
          · exact .inl (p.mem_iff.mpr (List.mem_cons_of_mem _ h'))
          · exact .inr (List.mem_append_left _ h')
      · exact p.nodup_iff.mpr (List.nodup_cons.mpr ⟨fresh, i.nodup⟩)
  | resume k =>
    have hf : (s.flag = true ↔ Op.set ∈ h ++ [Op.resume k]) := by rw [i.flag]; simp
    have hn : s.next = waits (h ++ [Op.resume k]) := by rw [i.next]; simp [waits]
    have hkp : ∀ j < s.next, j ∈ s.waiting ++ s.ready ++ s.returned ∨ Cancelled (h ++ [Op.resume k]) j := by
      intro j hj
      rcases i.kept j hj with h' | h'
      · exact .inl h'
      · exact .inr (List.mem_append_left _ h')
    simp only [step, resume]
    by_cases c : s.ready.contains k = true
    · rw [if_pos c]
      have hm : k ∈ s.ready := by simpa using c
      have p : (s.waiting ++ s.ready.erase k ++ (s.returned ++ [k])).Perm (s.waiting ++ s.ready ++ s.returned) := by
        simp only [List.append_assoc]
        refine List.Perm.append_left _ ?_
        have q : (s.ready.erase k ++ (s.returned ++ [k])).Perm (k :: (s.ready.erase k ++ s.returned)) := by
          rw [← List.append_assoc]; exact (List.perm_append_comm).trans (by simp)
        refine q.trans ?_
        rw [← List.cons_append]
        exact (List.perm_cons_erase hm).symm.append_right _
      refine ⟨hf, hn, i.idle, ?_, ?_, ?_, ?_⟩
      · intro e
        have := (i.early e).1
        rw [this] at hm; cases hm
      · intro j hj; exact i.below j (p.mem_iff.mp hj)
      · intro j hj; exact (hkp j hj).imp (fun m => p.mem_iff.mpr m) id
      · exact p.nodup_iff.mpr i.nodup
    · rw [if_neg c]
      exact ⟨hf, hn, i.idle, i.early, i.below, hkp, i.nodup⟩
  | cancel k =>
    simp only [step, cancel]
    have sub : (s.waiting.erase k ++ s.ready.erase k ++ s.returned).Sublist (s.waiting ++ s.ready ++ s.returned) :=
      List.Sublist.append (List.Sublist.append List.erase_sublist List.erase_sublist) (List.Sublist.refl _)
    refine ⟨?_, ?_, ?_, ?_, ?_, ?_, ?_⟩ <;> dsimp only
    · rw [i.flag]; simp
    · rw [i.next]; simp [waits]
    · intro e; rw [i.idle e]; rfl
    · intro e; rw [(i.early e).1]; exact ⟨rfl, (i.early e).2⟩
    · intro j hj; exact i.below j (sub.subset hj)
    · intro j hj
      by_cases e : j = k
      · subst e; right; simp [Cancelled]
      · rcases i.kept j hj with h' | h'
        · left
          simp only [List.mem_append] at h' ⊢
          rcases h' with (h' | h') | h'
          · exact .inl (.inl ((List.mem_erase_of_ne e).mpr h'))
          · exact .inl (.inr ((List.mem_erase_of_ne e).mpr h'))
          · exact .inr h'
        · exact .inr (List.mem_append_left _ h')
    · exact sub.nodup i.nodup

theorem run_inv (h : List Op) : Inv h (run {} h) := by
  have key : ∀ (l p : List Op) (s : State), Inv p s → Inv (p ++ l) (run s l) := by
    intro l
    induction l with
    | nil => intro p s i; simpa [run] using i
    | cons op l ih =>
      intro p s i
      have := ih (p ++ [op]) (step s op) (step_inv i op)
      simpa [run] using this
  simpa using key h [] {} init_inv

/-- **C314.**  The event is set exactly when `set` has been called, and stays so. -/
theorem C314_set (h : List Op) : isSet (run {} h) = true ↔ Op.set ∈ h := (run_inv h).flag

/-- **C314.**  No call of `wait` returns before the event is set. -/
theorem C314_not_before (h : List Op) (k : Nat) (hk : k ∈ (run {} h).returned) : Op.set ∈ h := by
  rw [← (run_inv h).flag]
  cases e : (run {} h).flag with
  | true => rfl
  | false => rw [((run_inv h).early e).2] at hk; cases hk

/-- **C314.**  Once the event is set, no call waits any more: every call of `wait` made so far, before or after, has returned, was cancelled, or returns as soon as its task runs. -/
theorem C314_released (h : List Op) (hs : Op.set ∈ h) : tasksWaiting (run {} h) = 0 ∧
    ∀ k < h.count .wait, k ∈ (run {} h).returned ∨ Op.cancel k ∈ h ∨ k ∈ (run {} (h ++ [.resume k])).returned := by
  have i := run_inv h
  have e := i.idle (i.flag.mpr hs)
  refine ⟨by simp [tasksWaiting, e], ?_⟩
  intro k hk
  rcases i.kept k (by rw [i.next]; exact hk) with h' | h'
  · rw [e] at h'
    simp only [List.nil_append, List.mem_append] at h'
    rcases h' with h' | h'
    · right; right
      simp only [run, List.foldl_append, List.foldl_cons, List.foldl_nil]
      show k ∈ (resume (run {} h) k).returned
      unfold resume
      rw [if_pos (by simpa using h')]
      simp
    · exact .inl h'
  · exact .inr (.inl h')

/-- **C314.**  A call returns at most once. -/
theorem C314_once (h : List Op) : (run {} h).returned.Nodup := (List.nodup_append.mp (run_inv h).nodup).2.1

/-- **C314.**  As long as the event is not set, `statistics` counts the calls of `wait` that were not cancelled: they are the ones that wait. -/
theorem C314_waiting (h : List Op) (hs : Op.set ∉ h) (hc : ∀ k, Op.cancel k ∉ h) : tasksWaiting (run {} h) = h.count .wait := by
  have key : ∀ (l : List Op) (s : State), s.flag = false → Op.set ∉ l → (∀ k, Op.cancel k ∉ l) → (run s l).waiting.length = s.waiting.length + l.count .wait := by
    intro l
    induction l with
    | nil => intro s _ _ _; simp [run]
    | cons op l ih =>
      intro s f h1 h2
      have h1' : Op.set ∉ l := fun m => h1 (List.mem_cons_of_mem _ m)
      have h2' : ∀ k, Op.cancel k ∉ l := fun k m => h2 k (List.mem_cons_of_mem _ m)
      show (run (step s op) l).waiting.length = _
      cases op with
      | set => exact absurd List.mem_cons_self h1
      | cancel k => exact absurd List.mem_cons_self (h2 k)
      | wait =>
        have e : step s .wait = { s with waiting := s.waiting ++ [s.next], next := s.next + 1 } := by
          simp only [step, wait, f]; rfl
        rw [e, ih { s with waiting := s.waiting ++ [s.next], next := s.next + 1 } f h1' h2']
        simp; omega
      | resume k =>
        have e : (step s (.resume k)).waiting = s.waiting ∧ (step s (.resume k)).flag = s.flag := by
          simp only [step, resume]; split <;> exact ⟨rfl, rfl⟩
        rw [ih _ (e.2.trans f) h1' h2', e.1]
        simp
  have := key h {} rfl hs hc
  simpa [tasksWaiting] using this

/-- Two tasks wait, one is cancelled, the event is set, another task comes, all return. -/
example : (run {} [.wait, .wait, .wait, .cancel 1, .resume 0]).waiting = [0, 2] ∧ tasksWaiting (run {} [.wait, .wait]) = 2 ∧
    (run {} [.wait, .wait, .wait, .cancel 1, .set, .wait, .resume 2, .resume 3, .resume 0]).returned = [2, 3, 0] ∧
    isSet (run {} [.wait, .set, .wait]) = true := by decide

end Verif.EventFlag
