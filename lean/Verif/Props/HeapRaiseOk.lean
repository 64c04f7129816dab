import Verif.Props.HeapRaise

/-!
# C232: operations that do not raise are those of the queue of comparable items
-/

set_option linter.unusedSectionVars false
set_option linter.unusedSimpArgs false

namespace Verif.HeapRaise

variable {α : Type}

/-- Where the comparison returns, it returns what `f` says. -/
def Agrees (lt : α → α → Option Bool) (f : α → α → Bool) : Prop := ∀ a b r, lt a b = some r → r = f a b

theorem siftdown_agrees {lt : α → α → Option Bool} {f : α → α → Bool} (ha : Agrees lt f) : ∀ (k : Nat) (l : List α) (pos : Nat) (r : List α),
    siftdown lt k l pos = (r, false) → siftdown (fun a b => some (f a b)) k l pos = (r, false)
  | 0, l, pos, r, h => h
  | k + 1, l, pos, r, h => by
    simp only [siftdown] at h ⊢
    by_cases h0 : pos = 0
    · rw [if_pos h0] at h ⊢; exact h
    · rw [if_neg h0] at h ⊢
      cases hx : l[pos]? with
      | none => rw [hx] at h; exact h
      | some x =>
        cases hp : l[(pos - 1) / 2]? with
        | none => rw [hx, hp] at h; exact h
        | some p =>
          rw [hx, hp] at h
          simp only at h ⊢
          cases hl : lt x p with
          | none => rw [hl] at h; simp at h
          | some b =>
            rw [hl] at h
            rw [← ha x p b hl]
            cases b with
            | false => exact h
            | true => exact siftdown_agrees ha k _ _ r h

theorem smallerChild_agrees {lt : α → α → Option Bool} {f : α → α → Bool} (ha : Agrees lt f) (l : List α) (pos c : Nat) (h : smallerChild lt l pos = some c) :
    smallerChild (fun a b => some (f a b)) l pos = some c := by
  unfold smallerChild at h ⊢
  cases h1 : l[2 * pos + 1]? with
  | none => rw [h1] at h; exact h
  | some a =>
    cases h2 : l[2 * pos + 2]? with
    | none => rw [h1, h2] at h; exact h
    | some b =>
      rw [h1, h2] at h
      simp only at h ⊢
      cases hl : lt a b with
      | none => rw [hl] at h; cases h
      | some r => rw [hl] at h; rw [← ha a b r hl]; exact h

theorem siftup_agrees {lt : α → α → Option Bool} {f : α → α → Bool} (ha : Agrees lt f) : ∀ (k : Nat) (l : List α) (pos : Nat) (r : List α) (q : Nat),
    siftup lt k l pos = (r, q, false) → siftup (fun a b => some (f a b)) k l pos = (r, q, false)
  | 0, l, pos, r, q, h => h
  | k + 1, l, pos, r, q, h => by
    simp only [siftup] at h ⊢
    by_cases h0 : 2 * pos + 1 < l.length
    · rw [if_pos h0] at h ⊢
      cases hc : smallerChild lt l pos with
      | none => rw [hc] at h; simp at h
      | some c =>
        rw [hc] at h
        rw [smallerChild_agrees ha l pos c hc]
        exact siftup_agrees ha k _ _ r q h
    · rw [if_neg h0] at h ⊢; exact h

theorem restore_agrees {lt : α → α → Option Bool} {f : α → α → Bool} (ha : Agrees lt f) (l r : List α) (h : restore lt l = (r, false)) :
    restore (fun a b => some (f a b)) l = (r, false) := by
  unfold restore at h ⊢
  generalize hs : siftup lt l.length l 0 = x at h
  obtain ⟨l', q, b⟩ := x
  cases b with
  | true => simp at h
  | false =>
    simp only at h
    rw [siftup_agrees ha _ _ _ _ _ hs]
    exact siftdown_agrees ha _ _ _ _ h

/-- C232, for operations that do not raise: whatever other items cannot be compared, a put or get that returns has done what it does for comparable items.  (So only the exception breaks the queue.) -/
theorem C232_returns {lt : α → α → Option Bool} {f : α → α → Bool} (ha : Agrees lt f) (m : Int) (q : List α) (x : α) :
    (∀ r, put lt m q x = (r, .ok ()) → r = Heapq.push f q x) ∧ (∀ r y, get lt q = (r, .ok y) → Heapq.pop f q = some (y, r)) := by
  constructor
  · intro r h
    unfold put at h
    split at h
    · cases h
    · generalize hp : push lt q x = z at h
      obtain ⟨l, b⟩ := z
      cases b with
      | true => cases h
      | false =>
        simp only [Prod.mk.injEq, and_true] at h
        subst h
        have := siftdown_agrees ha _ _ _ _ hp
        have h2 := push_total (f := f) (fun _ _ => rfl) q x
        unfold push at h2
        rw [h2] at this
        exact ((Prod.mk.injEq _ _ _ _).mp this).1.symm
  · intro r y h
    cases q with
    | nil => cases h
    | cons first more =>
      have hp : pop (fun a b => some (f a b)) first more = (r, some y) := by
        simp only [get] at h
        generalize hp : pop lt first more = z at h
        obtain ⟨l, o⟩ := z
        cases o with
        | none => cases h
        | some v =>
          simp only [Prod.mk.injEq, Except.ok.injEq] at h
          obtain ⟨rfl, rfl⟩ := h
          unfold pop at hp ⊢
          cases hl : more.getLast? with
          | none => rw [hl] at hp; exact hp
          | some last =>
            rw [hl] at hp
            simp only at hp ⊢
            generalize hr : restore lt (last :: more.dropLast) = w at hp
            obtain ⟨l', b⟩ := w
            cases b with
            | true => simp at hp
            | false =>
              rw [restore_agrees ha _ _ hr]
              exact hp
      obtain ⟨r', h1, h2⟩ := pop_total (f := f) (fun _ _ => rfl) first more
      rw [h1] at hp
      simp only [Prod.mk.injEq, Option.some.injEq] at hp
      rw [h2, hp.1, hp.2]

/-- Payloads that cannot be compared, but no two of them meet. -/
example : Agrees demoLt (fun a b => decide (a.1 < b.1)) ∧ get demoLt [(0, 5), (1, 10), (2, 20)] = ([(1, 10), (2, 20)], .ok (0, 5)) := by
  refine ⟨?_, by decide⟩
  intro a b r h
  unfold demoLt at h
  split at h
  · next e => cases h; simp [e]
  · split at h
    · cases h
    · cases h; rfl

/-- Two of them meet among the children of the first item: the get raises. -/
example : get demoLt [(0, 5), (1, 10), (1, 20), (2, 30)] = ([(2, 30), (1, 10), (1, 20)], .error .typeError) := by decide

end Verif.HeapRaise
