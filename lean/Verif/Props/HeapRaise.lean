import Verif.Model.HeapRaise
import Verif.Props.PriorityQueue

/-!
# C232: queue operations that raise because items cannot be compared
-/

set_option linter.unusedSectionVars false
set_option linter.unusedSimpArgs false

namespace Verif.HeapRaise

variable {α : Type}

theorem swap_perm (l : List α) (i j : Nat) : (swap l i j).Perm l := by
  unfold swap
  split
  · rename_i a b ha hb
    by_cases hij : i = j
    · subst hij
      rw [ha] at hb
      cases hb
      rw [List.set_set]
      have : l.set i a = l := by
        have hi := (List.getElem?_eq_some_iff.1 ha)
        rw [← hi.2]; exact List.set_getElem_self hi.1
      rw [this]
    · exact Heapq.swap_perm hij ha hb
  · exact .refl _

theorem siftdown_perm (lt : α → α → Option Bool) : ∀ (k : Nat) (l : List α) (pos : Nat), (siftdown lt k l pos).1.Perm l
  | 0, l, pos => .refl _
  | k + 1, l, pos => by
    simp only [siftdown]
    split
    · exact .refl _
    · split
      · split
        · exact .refl _
        · exact .refl _
        · exact (siftdown_perm lt k _ _).trans (swap_perm _ _ _)
      · exact .refl _

theorem siftup_perm (lt : α → α → Option Bool) : ∀ (k : Nat) (l : List α) (pos : Nat), (siftup lt k l pos).1.Perm l
  | 0, l, pos => .refl _
  | k + 1, l, pos => by
    simp only [siftup]
    split
    · split
      · exact .refl _
      · exact (siftup_perm lt k _ _).trans (swap_perm _ _ _)
    · exact .refl _

theorem push_perm (lt : α → α → Option Bool) (l : List α) (x : α) : (push lt l x).1.Perm (x :: l) :=
  (siftdown_perm lt _ _ _).trans (List.perm_append_singleton x l)

theorem restore_perm (lt : α → α → Option Bool) (l : List α) : (restore lt l).1.Perm l := by
  unfold restore
  have h := siftup_perm lt l.length l 0
  split
  · rename_i r pos e; rw [e] at h; exact h
  · rename_i r pos e; rw [e] at h; exact (siftdown_perm lt _ _ _).trans h

theorem pop_perm (lt : α → α → Option Bool) (first : α) (more : List α) :
    (pop lt first more).1.Perm more ∧ ∀ x, (pop lt first more).2 = some x → x = first := by
  unfold pop
  cases hl : more.getLast? with
  | none =>
    have : more = [] := List.getLast?_eq_none_iff.1 hl
    subst this
    exact ⟨.refl _, fun x hx => by cases hx; rfl⟩
  | some last =>
    obtain ⟨ys, rfl⟩ := List.getLast?_eq_some_iff.1 hl
    rw [List.dropLast_concat]
    have h := restore_perm lt (last :: ys)
    have h' : (restore lt (last :: ys)).1.Perm (ys ++ [last]) := h.trans (List.perm_append_singleton last ys).symm
    simp only
    split
    · rename_i r e; rw [e] at h'; exact ⟨h', fun x hx => by cases hx⟩
    · rename_i r e; rw [e] at h'; exact ⟨h', fun x hx => by cases hx; rfl⟩

/-! ### With items that can always be compared nothing raises -/

theorem siftdown_hole (f : α → α → Bool) (k : Nat) (l : List α) (x y : α) (pos : Nat) :
    Heapq.siftdown f k (l.set pos y) x pos = Heapq.siftdown f k l x pos := by
  cases k with
  | zero => simp [Heapq.siftdown]
  | succ k =>
    simp only [Heapq.siftdown]
    by_cases h0 : pos = 0
    · subst h0; simp
    · rw [if_neg h0, if_neg h0, List.getElem?_set_ne (by omega)]
      split
      · simp
      · simp

theorem siftdown_total {lt : α → α → Option Bool} {f : α → α → Bool} (ht : ∀ a b, lt a b = some (f a b)) : ∀ (k : Nat) (l : List α) (pos : Nat) (x : α),
    l[pos]? = some x → siftdown lt k l pos = (Heapq.siftdown f k l x pos, false)
  | 0, l, pos, x, hx => by
    have hi := List.getElem?_eq_some_iff.1 hx
    simp only [siftdown, Heapq.siftdown]
    rw [← hi.2, List.set_getElem_self hi.1]
  | k + 1, l, pos, x, hx => by
    have hi := List.getElem?_eq_some_iff.1 hx
    have hs : l.set pos x = l := by rw [← hi.2]; exact List.set_getElem_self hi.1
    simp only [siftdown, Heapq.siftdown]
    by_cases h0 : pos = 0
    · subst h0
      rw [if_pos rfl, if_pos rfl, hs]
    · rw [if_neg h0, if_neg h0, hx]
      cases hp : l[(pos - 1) / 2]? with
      | none => simp [hs]
      | some p =>
        simp only [ht]
        cases hf : f x p with
        | false => simp [hs]
        | true =>
          simp only [if_true]
          have hne : pos ≠ (pos - 1) / 2 := by omega
          have hlt := (List.getElem?_eq_some_iff.1 hp).1
          have e : swap l pos ((pos - 1) / 2) = (l.set pos p).set ((pos - 1) / 2) x := by
            unfold swap; rw [hx, hp]
          rw [e, siftdown_total ht k _ _ x (by simp [hlt]), siftdown_hole]

theorem smallerChild_set (f : α → α → Bool) (l : List α) (pos : Nat) (y : α) : Heapq.smallerChild f (l.set pos y) pos = Heapq.smallerChild f l pos := by
  unfold Heapq.smallerChild
  rw [List.getElem?_set_ne (by omega), List.getElem?_set_ne (by omega)]

theorem smallerChild_gt (f : α → α → Bool) (l : List α) (pos : Nat) : pos < Heapq.smallerChild f l pos := by
  unfold Heapq.smallerChild; split
  · split <;> omega
  · omega

theorem siftup_hole (f : α → α → Bool) (k : Nat) (l : List α) (x y : α) (pos : Nat) :
    (Heapq.siftupLoop f k (l.set pos y) pos).2 = (Heapq.siftupLoop f k l pos).2 ∧
    (Heapq.siftupLoop f k (l.set pos y) pos).1.set (Heapq.siftupLoop f k l pos).2 x =
      (Heapq.siftupLoop f k l pos).1.set (Heapq.siftupLoop f k l pos).2 x := by
  cases k with
  | zero => simp [Heapq.siftupLoop]
  | succ k =>
    simp only [Heapq.siftupLoop, List.length_set, smallerChild_set]
    by_cases h : 2 * pos + 1 < l.length
    · rw [if_pos h, if_pos h, List.getElem?_set_ne (by have := smallerChild_gt f l pos; omega)]
      split
      · simp
      · simp
    · rw [if_neg h, if_neg h]; simp

theorem smallerChild_total {lt : α → α → Option Bool} {f : α → α → Bool} (ht : ∀ a b, lt a b = some (f a b)) (l : List α) (pos : Nat) :
    smallerChild lt l pos = some (Heapq.smallerChild f l pos) := by
  unfold smallerChild Heapq.smallerChild
  cases l[2 * pos + 1]? with
  | none => rfl
  | some a =>
    cases l[2 * pos + 2]? with
    | none => rfl
    | some b => simp only [ht, Option.map_some]

theorem siftup_total {lt : α → α → Option Bool} {f : α → α → Bool} (ht : ∀ a b, lt a b = some (f a b)) : ∀ (k : Nat) (l : List α) (pos : Nat) (x : α),
    l[pos]? = some x →
    siftup lt k l pos = ((Heapq.siftupLoop f k l pos).1.set (Heapq.siftupLoop f k l pos).2 x, (Heapq.siftupLoop f k l pos).2, false)
  | 0, l, pos, x, hx => by
    have hi := List.getElem?_eq_some_iff.1 hx
    simp only [siftup, Heapq.siftupLoop]
    rw [← hi.2, List.set_getElem_self hi.1]
  | k + 1, l, pos, x, hx => by
    have hi := List.getElem?_eq_some_iff.1 hx
    have hs : l.set pos x = l := by rw [← hi.2]; exact List.set_getElem_self hi.1
    simp only [siftup, Heapq.siftupLoop, smallerChild_total ht]
    by_cases h : 2 * pos + 1 < l.length
    · rw [if_pos h, if_pos h]
      have hc : Heapq.smallerChild f l pos < l.length := by
        unfold Heapq.smallerChild
        split
        · rename_i a b ha hb
          have := (List.getElem?_eq_some_iff.1 hb).1
          split <;> omega
        · omega
      have hg := smallerChild_gt f l pos
      rw [List.getElem?_eq_getElem hc]
      simp only
      have e : swap l pos (Heapq.smallerChild f l pos) = (l.set pos l[Heapq.smallerChild f l pos]).set (Heapq.smallerChild f l pos) x := by
        unfold swap; rw [hx, List.getElem?_eq_getElem hc]
      have hh := siftup_hole f k (l.set pos l[Heapq.smallerChild f l pos]) x x (Heapq.smallerChild f l pos)
      rw [e, siftup_total ht k _ _ x (by simp [hc]), hh.1, hh.2]
    · rw [if_neg h, if_neg h]; simp [hs]

theorem restore_total {lt : α → α → Option Bool} {f : α → α → Bool} (ht : ∀ a b, lt a b = some (f a b)) (last : α) (rest : List α) :
    restore lt (last :: rest) =
      (Heapq.siftdown f (Heapq.siftupLoop f (last :: rest).length (last :: rest) 0).2 (Heapq.siftupLoop f (last :: rest).length (last :: rest) 0).1 last
        (Heapq.siftupLoop f (last :: rest).length (last :: rest) 0).2, false) := by
  unfold restore
  rw [siftup_total ht _ _ 0 last rfl]
  simp only
  have h1 := (Heapq.siftupLoop_spec f last (last :: rest).length (last :: rest) 0 (by simp) (by simp)).1
  rw [siftdown_total ht _ _ _ last (by rw [List.getElem?_set_self h1]), siftdown_hole]

theorem push_total {lt : α → α → Option Bool} {f : α → α → Bool} (ht : ∀ a b, lt a b = some (f a b)) (l : List α) (x : α) :
    push lt l x = (Heapq.push f l x, false) := by
  unfold push Heapq.push
  exact siftdown_total ht _ _ _ x (by simp)

theorem pop_total {lt : α → α → Option Bool} {f : α → α → Bool} (ht : ∀ a b, lt a b = some (f a b)) (first : α) (more : List α) :
    ∃ r, pop lt first more = (r, some first) ∧ Heapq.pop f (first :: more) = some (first, r) := by
  unfold pop Heapq.pop
  cases hl : more.getLast? with
  | none =>
    have : more = [] := List.getLast?_eq_none_iff.1 hl
    subst this
    exact ⟨[], rfl, rfl⟩
  | some last =>
    obtain ⟨ys, rfl⟩ := List.getLast?_eq_some_iff.1 hl
    have e1 : (first :: (ys ++ [last])).getLast? = some last := by
      rw [← List.cons_append]; exact List.getLast?_concat ..
    have e2 : (first :: (ys ++ [last])).dropLast = first :: ys := by
      rw [← List.cons_append, List.dropLast_concat]
    rw [e1, e2, List.dropLast_concat]
    simp only [restore_total ht]
    exact ⟨_, rfl, rfl⟩

/-! ### C232 -/

/-- C232 where it holds: when any two items can be compared, no operation raises TypeError; the operations are those of the total queue of C33. -/
theorem C232_comparable_partial {lt : α → α → Option Bool} {f : α → α → Bool} (ht : ∀ a b, lt a b = some (f a b)) (m : Int) (q : List α) (x : α) :
    (put lt m q x).2 ≠ .error .typeError ∧ (get lt q).2 ≠ .error .typeError ∧
    (PriorityQueue.full m q = false → put lt m q x = (Heapq.push f q x, .ok ())) ∧
    (∀ y r, Heapq.pop f q = some (y, r) → get lt q = (r, .ok y)) := by
  refine ⟨?_, ?_, ?_, ?_⟩
  · unfold put
    rw [push_total ht]
    split <;> simp
  · cases q with
    | nil => simp [get]
    | cons a as =>
      obtain ⟨r, h1, _⟩ := pop_total ht a as
      simp [get, h1]
  · intro hf
    unfold put
    rw [push_total ht, if_neg (by unfold PriorityQueue.full at hf; simp [hf])]
  · intro y r hp
    cases q with
    | nil => simp [Heapq.pop] at hp
    | cons a as =>
      obtain ⟨r', h1, h2⟩ := pop_total ht a as
      rw [h2] at hp
      cases hp
      simp only [get, h1]

/-- C232, exactly: a put that raises TypeError has stored its item nevertheless; a get that raises TypeError has removed the first item of the heap, which
nobody receives.  So no operation that raises TypeError leaves the queue as it was; those that raise for a full or empty queue do. -/
theorem C232_exact_partial (lt : α → α → Option Bool) (m : Int) (q : List α) (x : α) :
    ((put lt m q x).2 = .error .typeError → (put lt m q x).1.Perm (x :: q)) ∧
    ((get lt q).2 = .error .typeError → ∃ first, q.head? = some first ∧ q.Perm (first :: (get lt q).1)) ∧
    (∀ e, (put lt m q x).2 = .error e → ((put lt m q x).1 = q ↔ e = .queueFull)) ∧
    (∀ e, (get lt q).2 = .error e → ((get lt q).1 = q ↔ q = [])) := by
  have hput : (put lt m q x = (q, .error .queueFull)) ∨ (put lt m q x).1.Perm (x :: q) ∧
      ((put lt m q x).2 = .ok () ∨ (put lt m q x).2 = .error .typeError) := by
    unfold put
    split
    · exact .inl rfl
    · right
      have := push_perm lt q x
      split
      · rename_i r e; rw [e] at this; exact ⟨this, .inr rfl⟩
      · rename_i r e; rw [e] at this; exact ⟨this, .inl rfl⟩
  have hget : ∀ a as, q = a :: as → (get lt q).1.Perm as := by
    rintro a as rfl
    have := (pop_perm lt a as).1
    simp only [get]
    split
    · rename_i r y e; rw [e] at this; exact this
    · rename_i r e; rw [e] at this; exact this
  refine ⟨?_, ?_, ?_, ?_⟩
  · intro h
    rcases hput with h' | h'
    · rw [h'] at h; cases h
    · exact h'.1
  · intro h
    cases q with
    | nil => simp [get] at h
    | cons a as => exact ⟨a, rfl, List.Perm.cons a (hget a as rfl).symm⟩
  · intro e h
    rcases hput with h' | ⟨h1, h2⟩
    · rw [h'] at h ⊢
      cases h
      simp
    · constructor
      · intro hq
        rw [hq] at h1
        have := h1.length_eq
        simp at this
      · rintro rfl
        rcases h2 with h2 | h2 <;> rw [h2] at h <;> cases h
  · intro e h
    cases q with
    | nil => simp [get]
    | cons a as =>
      simp only [reduceCtorEq, iff_false]
      intro hq
      have := (hget a as rfl).length_eq
      rw [hq] at this
      simp at this

/-- Items (priority, payload): payloads cannot be compared, equal ones are not compared (`==` decides first in tuples). -/
def demoLt (a b : Nat × Nat) : Option Bool :=
  if a = b then some false else if a.1 = b.1 then none else some (decide (a.1 < b.1))

/-- C232, which errors there are: a put raises exactly for a full queue, or TypeError; a get raises for an empty queue (QueueEmpty) and only then,
or TypeError. -/
theorem C232_errors_partial (lt : α → α → Option Bool) (m : Int) (q : List α) (x : α) :
    (∀ e, (put lt m q x).2 = .error e → e = .queueFull ∧ 0 < m ∧ m ≤ q.length ∨ e = .typeError) ∧
    ((0 < m ∧ m ≤ q.length) → (put lt m q x).2 = .error .queueFull) ∧
    (∀ e, (get lt q).2 = .error e → e = .indexError ∨ e = .typeError) ∧
    ((get lt q).2 = .error .indexError ↔ q = []) := by
  refine ⟨fun e h => ?_, fun h => ?_, fun e h => ?_, ?_⟩
  · unfold put at h
    split at h
    · rename_i hm
      cases h
      left
      simpa using hm
    · split at h
      · cases h; right; rfl
      · cases h
  · unfold put
    rw [if_pos (by simpa using h)]
  · unfold get at h
    split at h
    · cases h; left; rfl
    · split at h
      · cases h
      · cases h; right; rfl
  · cases q with
    | nil => simp [get]
    | cons a as =>
      simp only [get, reduceCtorEq, iff_false]
      split <;> simp

/-- C232 is refuted: the put of a second item of the same priority raises and stores it; a get that has to compare the two raises and loses the item it
should have returned. -/
theorem C232_raise_violation :
    put demoLt 0 [(1, 10)] (1, 20) = ([(1, 10), (1, 20)], .error .typeError) ∧
    get demoLt [(0, 5), (1, 10), (1, 20)] = ([(1, 10), (1, 20)], .error .typeError) := by decide

/-- Non-vacuity of the positive part. -/
example : put (fun a b : Nat => some (decide (a < b))) 0 [2, 5] 1 = ([1, 5, 2], .ok ()) ∧
    get (fun a b : Nat => some (decide (a < b))) [1, 5, 2] = ([2, 5], .ok 1) := by decide

end Verif.HeapRaise
