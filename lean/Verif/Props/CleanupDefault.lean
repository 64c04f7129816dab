import Verif.Props.Executor

set_option linter.unusedSectionVars false
set_option linter.unusedSimpArgs false
set_option linter.unusedVariables false

/-!
# C275: what `cleanup_events()` leaves
-/

namespace Verif.Executor

open Verif.Event (Status)

variable {γ : Type} [DecidableEq γ]

/-- The flow after `cleanup_events()` without arguments. -/
def afterDefault (f : EFlow γ) : EFlow γ := (cleanup f defaultStatuses).1

/-- C275 (partial): the default clean-up removes precisely the completed, failed and aborted events; cancelled and skipped ones stay.  Missing: that these go too
(`C275_violation`); they are gone iff there were none. -/
theorem C275_exact_partial {pid : Status → Nat} (inj : ∀ a b, pid a = pid b → a = b) (cls : List γ) (strict : Bool)
    (sub : γ → γ → Bool) (c : Processor.Cfg) (as : List (Act γ)) (hg : GentleRun sub c (init pid cls strict) as) :
    let f := (run sub c (init pid cls strict) as).flow
    (∀ u, u ∈ (afterDefault f).items.order ↔ u ∈ f.items.order ∧ u ∉ listed f .completed ∧ u ∉ listed f .failed ∧ u ∉ listed f .aborted) ∧
    (∀ st, listed (afterDefault f) st = if st = .completed ∨ st = .failed ∨ st = .aborted then [] else listed f st) ∧
    ((∀ u ∈ (afterDefault f).items.order, u ∈ listed (afterDefault f) .pending ∨ u ∈ listed (afterDefault f) .processing) ↔
      listed f .cancelled = [] ∧ listed f .skipped = []) := by
  intro f
  obtain ⟨f', ids, h1, h2, -, -, -, h6⟩ := C31_cleanup inj cls strict sub c as hg defaultStatuses
  have hf : afterDefault f = f' := by simp only [afterDefault]; exact congrArg (·.1) h1
  rw [hf]
  have hl : ∀ st, listed f' st = if st = .completed ∨ st = .failed ∨ st = .aborted then [] else listed f st := by
    intro st
    rw [h6 st]
    cases st <;> rfl
  have hm : ∀ u, u ∈ f'.items.order ↔ u ∈ f.items.order ∧ u ∉ listed f .completed ∧ u ∉ listed f .failed ∧ u ∉ listed f .aborted := by
    intro u
    rw [h2, List.mem_filter]
    simp only [defaultStatuses, List.mem_cons, List.not_mem_nil, or_false, exists_eq_or_imp, exists_eq_left, decide_eq_true_eq, not_or]
    exact Iff.rfl
  refine ⟨hm, hl, ?_⟩
  have hC := C93_any_cleanup_partial inj cls strict sub c as hg
  obtain ⟨-, hperm, hone, -⟩ := hC
  have hstored : ∀ st u, u ∈ listed f st → u ∈ f.items.order := by
    intro st u hu
    apply hperm.subset
    rw [List.mem_flatMap]
    exact ⟨st, by cases st <;> decide, hu⟩
  have huniq : ∀ st st' u, u ∈ listed f st → u ∈ listed f st' → st = st' := by
    intro st st' u h h'
    obtain ⟨s0, -, -, hs⟩ := hone u (hstored st u h)
    rw [hs st h, hs st' h']
  have hp : listed f' .pending = listed f .pending := by rw [hl]; rfl
  have hq : listed f' .processing = listed f .processing := by rw [hl]; rfl
  rw [hp, hq]
  constructor
  · intro h
    have key : ∀ st, st = .cancelled ∨ st = .skipped → listed f st = [] := by
      intro st hst
      cases hc : listed f st with
      | nil => rfl
      | cons u l =>
        exfalso
        have hu : u ∈ listed f st := by rw [hc]; exact List.mem_cons_self
        have hin : u ∈ f'.items.order := by
          rw [hm]
          refine ⟨hstored _ _ hu, ?_, ?_, ?_⟩ <;> intro h' <;> have := huniq _ _ _ hu h' <;> subst this <;> simp at hst
        rcases h u hin with h' | h' <;> have := huniq _ _ _ hu h' <;> subst this <;> simp at hst
    exact ⟨key _ (.inl rfl), key _ (.inr rfl)⟩
  · rintro ⟨hc, hs⟩ u hu
    rw [hm] at hu
    obtain ⟨h0, h1', h2', h3'⟩ := hu
    obtain ⟨st, hst, -⟩ := hone u h0
    cases st with
    | pending => exact .inl hst
    | processing => exact .inr hst
    | completed => exact absurd hst h1'
    | failed => exact absurd hst h2'
    | cancelled => exact absurd hst (by show u ∉ listed f .cancelled; rw [hc]; simp)
    | skipped => exact absurd hst (by show u ∉ listed f .skipped; rw [hs]; simp)
    | aborted => exact absurd hst h3'

/-- Two events that time out, one after the other, with a clean-up after each. -/
def timedOut : List (Act Unit) :=
  [.append (ev0 1 10) none, .start, .fill, .enqPut 0, .forward, .go 0 .grant, .go 0 .grant, .go 0 .grant, .go 0 .grant, .finish 0 .cancelled,
    .cleanup defaultStatuses, .append (ev0 2 11) none, .enqPut 0, .go 0 .grant, .go 0 .grant, .go 0 .grant, .go 0 .grant, .finish 0 .cancelled,
    .cleanup defaultStatuses]

/-- C275 is false: events that timed out stay stored after any number of default clean-ups. -/
theorem C275_violation :
    (run (fun _ _ => true) cfg0 (init pid0 [()] false) timedOut).flow.items.order = [1, 2] ∧
    listed (run (fun _ _ => true) cfg0 (init pid0 [()] false) timedOut).flow .pending = [] ∧
    listed (run (fun _ _ => true) cfg0 (init pid0 [()] false) timedOut).flow .processing = [] ∧
    (afterDefault (run (fun _ _ => true) cfg0 (init pid0 [()] false) timedOut).flow).items.order = [1, 2] := by
  refine ⟨by decide, by decide, by decide, by decide⟩

/-- Non-vacuity: in a history that meets the hypothesis, one event has completed and goes, another is executing and stays. -/
example :
    let f := (run (fun _ _ => true) cfg0 (init pid0 [()] false) demo).flow
    f.items.order = [1, 2] ∧ (afterDefault f).items.order = [1] ∧ listed f .cancelled = [] ∧ listed f .skipped = [] := by
  refine ⟨by decide, by decide, by decide, by decide⟩

end Verif.Executor
