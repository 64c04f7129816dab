import Verif.Model.ExecSlots
import Verif.Props.Executor

/-!
# The concurrency limit of a processor: C257
-/

set_option linter.unusedSectionVars false
set_option linter.unusedSimpArgs false
set_option linter.unusedVariables false

namespace Verif.ExecSlots

open Verif.Event (Status)

variable {γ : Type} [DecidableEq γ]

/-! ### Specification -/

/-- Number of events whose body is being executed. -/
def executing (s : Sys γ) : Nat := s.has.count true

/-- Number of started events that wait for a slot. -/
def waiting (s : Sys γ) : Nat := s.has.count false

/-! ### Invariant -/

structure Inv (limit : Nat) (s : Sys γ) : Prop where
  len : s.has.length = s.ex.runs.length
  sum : s.free + s.has.count true = limit

/-- An action other than the end of an event removes no started event. -/
theorem runs_base (sub : γ → γ → Bool) (c : Processor.Cfg) (s : Executor.Sys γ) (a : Executor.Act γ) (h : ends a = false) :
    ∃ l, (Executor.step sub c s a).runs = s.runs ++ l := by
  cases a with
  | finish k st => cases h
  | vanish k => cases h
  | append ev prio =>
    simp only [Executor.step]
    split <;> exact ⟨[], by simp⟩
  | start =>
    simp only [Executor.step]
    split
    · exact ⟨[], by simp⟩
    · split <;> exact ⟨[], by simp⟩
  | fill =>
    simp only [Executor.step]
    split <;> exact ⟨[], by simp⟩
  | enqPut k => exact ⟨[], by simp [Executor.step]⟩
  | forward => exact ⟨[], by simp [Executor.step]⟩
  | cancel i => exact ⟨[], by simp [Executor.step]⟩
  | stop => exact ⟨[], by simp [Executor.step]⟩
  | cleanup sts => exact ⟨[], by simp [Executor.step]⟩
  | go i perm =>
    simp only [Executor.step]
    split
    · exact ⟨[], by simp⟩
    · split
      · exact ⟨[], by simp⟩
      · split
        · exact ⟨[], by simp⟩
        · unfold Executor.goOn
          split
          · exact ⟨[], by simp⟩
          · split
            · exact ⟨[], by simp⟩
            · exact ⟨_, rfl⟩

theorem count_eraseIdx {l : List Bool} {k : Nat} {b : Bool} (h : l[k]? = some b) (d : Bool) : (l.eraseIdx k).count d + (if b = d then 1 else 0) = l.count d := by
  induction l generalizing k with
  | nil => simp at h
  | cons x l ih =>
    cases k with
    | zero =>
      simp only [List.getElem?_cons_zero, Option.some.injEq] at h
      subst h
      simp only [List.eraseIdx_cons_zero, List.count_cons]
      cases x <;> cases d <;> simp
    | succ k =>
      simp only [List.getElem?_cons_succ] at h
      have := ih h
      simp only [List.eraseIdx_cons_succ, List.count_cons]
      omega

theorem count_set {l : List Bool} {k : Nat} (h : l[k]? = some false) : (l.set k true).count true = l.count true + 1 ∧ (l.set k true).count false + 1 = l.count false := by
  induction l generalizing k with
  | nil => simp at h
  | cons x l ih =>
    cases k with
    | zero =>
      simp only [List.getElem?_cons_zero, Option.some.injEq] at h
      subst h
      simp [List.count_cons]
    | succ k =>
      simp only [List.getElem?_cons_succ] at h
      have := ih h
      simp only [List.set_cons_succ, List.count_cons]
      omega

theorem count_two (l : List Bool) : l.count true + l.count false = l.length := by
  induction l with
  | nil => rfl
  | cons x l ih =>
    rw [List.count_cons, List.count_cons]
    cases x <;> simp <;> omega

theorem Inv.step {limit : Nat} {s : Sys γ} (h : Inv limit s) (sub : γ → γ → Bool) (c : Processor.Cfg) (a : Act γ) : Inv limit (step sub c s a) := by
  obtain ⟨hl, hs⟩ := h
  cases a with
  | base a =>
    simp only [ExecSlots.step]
    cases he : ends a with
    | true => rw [if_pos rfl]; exact ⟨hl, hs⟩
    | false =>
      rw [if_neg (by simp)]
      obtain ⟨l, e⟩ := runs_base sub c s.ex a he
      refine ⟨?_, ?_⟩
      · simp only [base, e, List.length_append, List.length_replicate]; omega
      · simp only [base, List.count_append, List.count_replicate]; simpa using hs
  | enter k =>
    simp only [ExecSlots.step]
    split
    · next hc =>
      have := count_set hc.1
      exact ⟨by simpa using hl, by simp only; omega⟩
    · exact ⟨hl, hs⟩
  | finish k st =>
    simp only [ExecSlots.step]
    split
    · next hc =>
      have hk : k < s.has.length := (List.getElem?_eq_some_iff.1 hc).1
      have hr : s.ex.runs[k]? = some (s.ex.runs[k]'(by omega)) := List.getElem?_eq_getElem (by omega)
      have := count_eraseIdx hc true
      simp only [if_true] at this
      refine ⟨?_, by simp only; omega⟩
      simp only [Executor.step, hr, List.length_eraseIdx]
      rw [hl]
    · exact ⟨hl, hs⟩
  | vanish k =>
    simp only [ExecSlots.step]
    split
    · exact ⟨hl, hs⟩
    · next b hc =>
      have := count_eraseIdx hc true
      refine ⟨?_, ?_⟩
      · simp only [Executor.step, List.length_eraseIdx]; rw [hl]
      · simp only [back]; cases b <;> simp at this ⊢ <;> omega

theorem inv_run {limit : Nat} (sub : γ → γ → Bool) (c : Processor.Cfg) (as : List (Act γ)) {s : Sys γ} (h : Inv limit s) : Inv limit (run sub c s as) := by
  induction as generalizing s with
  | nil => exact h
  | cons a as ih => exact ih (h.step sub c a)

theorem inv_init (pid : Status → Nat) (cls : List γ) (strict : Bool) (limit : Nat) : Inv limit (init pid cls strict limit) := ⟨rfl, by simp [init]⟩

/-! ### C257 -/

/-- C257: whatever is appended, processed (by any number of overlapping calls), cancelled or cleaned up, and however events end, at most `limit` events are executed at the same time, and as
many more as there are free slots may begin: no slot is lost. -/
theorem C257_limit (sub : γ → γ → Bool) (c : Processor.Cfg) (pid : Status → Nat) (cls : List γ) (strict : Bool) (limit : Nat) (as : List (Act γ)) :
    executing (run sub c (init pid cls strict limit) as) ≤ limit ∧
    (run sub c (init pid cls strict limit) as).free = limit - executing (run sub c (init pid cls strict limit) as) := by
  have := (inv_run sub c as (inv_init pid cls strict limit)).sum
  simp only [executing]
  omega

/-- The executor's part of an action. -/
def under (s : Sys γ) : Act γ → List (Executor.Act γ)
  | .base a => if ends a then [] else [a]
  | .enter _ => []
  | .finish k st => if s.has[k]? = some true then [.finish k st] else []
  | .vanish k => if k < s.has.length then [.vanish k] else []

theorem under_step (sub : γ → γ → Bool) (c : Processor.Cfg) (s : Sys γ) (a : Act γ) : (step sub c s a).ex = Executor.run sub c s.ex (under s a) := by
  cases a with
  | base a => simp only [step, under]; split <;> rfl
  | enter k => simp only [step, under]; split <;> rfl
  | finish k st => simp only [step, under]; split <;> rfl
  | vanish k =>
    simp only [step, under]
    split
    · next h =>
      rw [if_neg (by have := List.getElem?_eq_none_iff.1 h; omega)]
      rfl
    · next b h =>
      rw [if_pos (List.getElem?_eq_some_iff.1 h).1]
      rfl

/-- C257: with the limit the executor does nothing that it could not do without: every schedule with slots is a schedule of the executor's transition system, in which events are only delayed (so
the claims about that system hold with every limit). -/
theorem C257_refines (sub : γ → γ → Bool) (c : Processor.Cfg) (s : Sys γ) (as : List (Act γ)) : ∃ bs, (run sub c s as).ex = Executor.run sub c s.ex bs := by
  induction as generalizing s with
  | nil => exact ⟨[], rfl⟩
  | cons a as ih =>
    obtain ⟨bs, hb⟩ := ih (step sub c s a)
    refine ⟨under s a ++ bs, ?_⟩
    rw [under_step] at hb
    have e1 : run sub c s (a :: as) = run sub c (step sub c s a) as := rfl
    rw [e1, hb, Executor.run, Executor.run, Executor.run, List.foldl_append]

/-- The steps by which started events get done. -/
def Progress (s : Sys γ) : Act γ → Prop
  | .base _ => False
  | .enter k => s.has[k]? = some false ∧ 0 < s.free
  | .finish k _ => s.has[k]? = some true
  | .vanish k => k < s.has.length

/-- What the started events have still to do: two steps while waiting, one while executing. -/
def todo (s : Sys γ) : Nat := 2 * waiting s + executing s

/-- C257: no started event is stuck: as long as one is unfinished, an event is executing (and may end) or every waiting event may begin. -/
theorem C257_enabled (sub : γ → γ → Bool) (c : Processor.Cfg) (pid : Status → Nat) (cls : List γ) (strict : Bool) (limit : Nat) (hlim : 1 ≤ limit) (as : List (Act γ))
    (hne : (run sub c (init pid cls strict limit) as).ex.runs ≠ []) :
    (∃ k, ∀ st, Progress (run sub c (init pid cls strict limit) as) (.finish k st)) ∨
    (∀ k, k < (run sub c (init pid cls strict limit) as).ex.runs.length → Progress (run sub c (init pid cls strict limit) as) (.enter k)) := by
  have hI := inv_run sub c as (inv_init pid cls strict limit)
  generalize run sub c (init pid cls strict limit) as = s at *
  by_cases hm : true ∈ s.has
  · left
    obtain ⟨k, hk⟩ := List.mem_iff_getElem?.1 hm
    exact ⟨k, fun st => hk⟩
  · right
    have h0 : s.has.count true = 0 := List.count_eq_zero.2 hm
    intro k hk
    have hk' : k < s.has.length := by rw [hI.len]; exact hk
    refine ⟨?_, by have := hI.sum; omega⟩
    rw [List.getElem?_eq_getElem hk']
    cases hb : s.has[k] with
    | false => rfl
    | true => exact absurd (hb ▸ List.getElem_mem hk') hm

/-- C257: each such step brings the started events nearer to their end: after at most `todo` steps (twice the number of started events) none is left. -/
theorem C257_drains (sub : γ → γ → Bool) (c : Processor.Cfg) (s : Sys γ) (a : Act γ) (hp : Progress s a) :
    todo (step sub c s a) < todo s ∧ todo s ≤ 2 * s.has.length := by
  have h2 := count_two s.has
  refine ⟨?_, by simp only [todo, waiting, executing]; omega⟩
  simp only [todo, waiting, executing]
  cases a with
  | base a => exact hp.elim
  | enter k =>
    have hp' : s.has[k]? = some false ∧ 0 < s.free := hp
    have := count_set hp'.1
    simp only [step]
    rw [if_pos hp']
    simp only
    omega
  | finish k st =>
    have hk : s.has[k]? = some true := hp
    have h1 := count_eraseIdx hk true
    have h0 := count_eraseIdx hk false
    simp only [step]
    rw [if_pos hk]
    simp at h1 h0 ⊢
    omega
  | vanish k =>
    have hk : s.has[k]? = some (s.has[k]'hp) := List.getElem?_eq_getElem hp
    have h1 := count_eraseIdx hk true
    have h0 := count_eraseIdx hk false
    simp only [step, hk]
    cases hb : s.has[k]'hp <;> rw [hb] at h1 h0 <;> simp at h1 h0 ⊢ <;> omega

/-- Two events started, one slot: the second begins when the first has ended. -/
def demoActs : List (Act Unit) :=
  [.base (.append (Executor.ev0 50 1) none), .base (.append (Executor.ev0 51 2) none), .base .start, .base .fill, .base .fill, .base (.enqPut 0), .base (.enqPut 0), .base .forward,
   .base (.go 0 .grant), .base (.go 0 .grant), .base (.go 0 .grant), .base (.go 0 .grant), .base (.go 0 .grant), .base (.go 0 .grant), .base (.go 0 .grant), .base (.go 0 .grant), .enter 1, .enter 0]

example :
    (run (fun _ _ => true) Executor.cfg0 (init Executor.pid0 [()] false 1) demoActs).has = [false, true] ∧
    (run (fun _ _ => true) Executor.cfg0 (init Executor.pid0 [()] false 1) demoActs).free = 0 ∧
    (run (fun _ _ => true) Executor.cfg0 (init Executor.pid0 [()] false 1) (demoActs ++ [.finish 0 .completed, .finish 1 .completed, .enter 0])).has = [true] ∧
    (run (fun _ _ => true) Executor.cfg0 (init Executor.pid0 [()] false 1) (demoActs ++ [.finish 1 .completed, .enter 0, .finish 0 .failed])).ex.runs = [] := by decide +kernel

end Verif.ExecSlots
