import Verif.Props.EventBusConc

/-! # C292, the other calls: while emissions run, every other method takes effect at once, and only a handler that a running emission will still use stays alive for it -/

set_option linter.unusedSimpArgs false
set_option linter.unusedVariables false

namespace Verif.EventBusConc

open Verif.EventBus

theorem emits_split : ∀ (log : List Ev) (n : Nat), n < emits log → ∃ q e t r, log = q ++ .emitted e t :: r ∧ emits q = n := by
  intro log
  induction log with
  | nil => intro n h; simp [emits] at h
  | cons v log ih =>
    intro n h
    by_cases hv : ∃ e t, v = .emitted e t
    · obtain ⟨e, t, rfl⟩ := hv
      cases n with
      | zero => exact ⟨[], e, t, log, rfl, rfl⟩
      | succ n =>
        have h' : n < emits log := by simp [emits] at h ⊢; omega
        obtain ⟨q, e', t', r, hq, hn⟩ := ih n h'
        exact ⟨.emitted e t :: q, e', t', r, by rw [hq]; rfl, by simp [emits] at hn ⊢; omega⟩
    · have he : ∀ l, emits (v :: l) = emits l := by
        intro l
        cases v <;> first | rfl | (exfalso; exact hv ⟨_, _, rfl⟩) | simp [emits]
      rw [he] at h
      obtain ⟨q, e', t', r, hq, hn⟩ := ih n h
      exact ⟨v :: q, e', t', r, by rw [hq]; rfl, by rw [he]; exact hn⟩

/-- An emission that has neither returned nor raised had the handler among its subscribers when it was called. -/
def InUse (log : List Ev) (h : Nat) : Prop := ∃ q r e t, log = q ++ .emitted e t :: r ∧ h ∈ subscribers q t ∧ .returned e ∉ r ∧ .raised e ∉ r

theorem held_iff {eqv : Nat → Nat → Bool} (hid : ∀ x y, eqv x y = true → x = y) (as : List Act) (h : Nat) :
    held (run eqv {} as) h = true ↔ InUse (run eqv {} as).log h := by
  simp only [held, List.any_eq_true, Bool.and_eq_true, List.contains_iff_mem]
  constructor
  · rintro ⟨k, hk, hr, hm⟩
    obtain ⟨e, he, hke⟩ := List.getElem_of_mem hk
    have hi := inv_run hid as inv_init
    obtain ⟨q, e', t, r, hl, hq⟩ := emits_split (run eqv {} as).log e (by rw [hi.count]; exact he)
    obtain ⟨h1, h2, k', h3, h4⟩ := whom_run hid as inv_init whom_init q r e' t hl
    have ee : e' = e := h1.trans hq
    subst ee
    rw [List.getElem?_eq_getElem he, hke] at h3
    cases h3
    have hp := hi.per e' k (by rw [List.getElem?_eq_getElem he, hke])
    refine ⟨q, r, e', t, hl, by rw [← h4]; exact hm, fun hx => ?_, fun hx => ?_⟩
    · have := hp.over.1 (Or.inl (by rw [hl]; exact (mem_tail h2 rfl).2 hx))
      rw [hr] at this; cases this
    · have := hp.over.1 (Or.inr (by rw [hl]; exact (mem_tail h2 rfl).2 hx))
      rw [hr] at this; cases this
  · rintro ⟨q, r, e, t, hl, hm, n1, n2⟩
    obtain ⟨hq, k, hk, hh, hp⟩ := of_run hid as hl
    refine ⟨k, List.mem_of_getElem? hk, ?_, by rw [hh]; exact hm⟩
    cases hr : k.running with
    | true => rfl
    | false =>
      rcases hp.over.2 hr with h | h <;> rw [hl] at h
      · exact absurd ((mem_tail hq rfl).1 h) n1
      · exact absurd ((mem_tail hq rfl).1 h) n2

/-- **C292**, the other calls: at any time, in the middle of any emissions, `subscribe`, `unsubscribe`, `clear` and the like take effect at once; and a handler without other references goes away
exactly if no emission that is going on had it among its subscribers. -/
theorem C292_ops {eqv : Nat → Nat → Bool} (hid : ∀ x y, eqv x y = true → x = y) (as : List Act) (o : Op) :
    ((∀ beh t, o ≠ .emit beh t) → (∀ h, o ≠ .collect h) → (run eqv {} (as ++ [.op o])).log = (run eqv {} as).log ++ [.op o]) ∧
    (∀ h, o = .collect h → ((run eqv {} (as ++ [.op o])).log = (run eqv {} as).log ++ [.op o] ↔ ¬ InUse (run eqv {} as).log h)) := by
  have e : run eqv {} (as ++ [.op o]) = step eqv (run eqv {} as) (.op o) := by simp [run, List.foldl_append]
  constructor
  · intro h1 h2
    have : allowed (run eqv {} as) o = true := by
      cases o <;> first | rfl | (exfalso; exact h1 _ _ rfl) | (exfalso; exact h2 _ rfl)
    rw [e]; simp only [step]; rw [if_pos this]
  · rintro h rfl
    rw [e, ← held_iff hid as h]; simp only [step, allowed]
    by_cases hh : held (run eqv {} as) h = true
    · simp [hh]
    · simp only [Bool.not_eq_true] at hh; simp [hh]

/-- A running emission holds its handler; afterwards the handler goes away. -/
example : (run byId {} [.op (.subscribe "a" 1), .emit good "a", .op (.collect 1)]).log = [.op (.subscribe "a" 1), .emitted 0 "a"] ∧
    (run byId {} [.op (.subscribe "a" 1), .emit good "a", .start 0 0, .finish 0 0, .ret 0, .op (.collect 1)]).log =
      [.op (.subscribe "a" 1), .emitted 0 "a", .began 0 0 1, .ended 0 0, .returned 0, .op (.collect 1)] := ⟨rfl, rfl⟩

end Verif.EventBusConc
