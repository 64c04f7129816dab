import Verif.Model.RunAsync

/-!
# C158-C160: running coroutines and functions
-/

set_option linter.unusedSectionVars false
set_option linter.unusedSimpArgs false
set_option linter.unusedVariables false

namespace Verif.RunAsync

variable {ν : Type}

/-! ### C158 -/

/-- The result of `run_async` is that of the coroutine: its value, or its exception raised. -/
def Faithful (c : End ν) (r : Ret ν) : Prop :=
  match c with
  | .value v => r = .returned (some v)
  | .exc e => r = .raised e
  | .base e => r = .raised e

/-- C158: `run_async(coro)` returns the coroutine's result or raises what it raises. This fails: after a `BaseException` that is no `Exception` (for example a `CancelledError` or `SystemExit`), it returns `None` as if the coroutine had returned it. -/
theorem C158_limit : ¬ Faithful (ν := Nat) (.base 0) (runAsync (.base 0)) ∧ runAsync (ν := Nat) (.base 0) = .returned none :=
  ⟨by simp [Faithful, runAsync, runInThread, unbox], rfl⟩

/-- C158: `run_async` returns the coroutine's value or raises the `Exception` it ended with. -/
theorem C158_run_async (c : End ν) (h : ∀ e, c ≠ .base e) : Faithful c (runAsync c) := by
  cases c with
  | value v => rfl
  | exc e => rfl
  | base e => exact absurd rfl (h e)

example : runAsync (.value 3) = .returned (some 3) ∧ runAsync (ν := Nat) (.exc 4) = .raised 4 := by decide

/-! ### C159 -/

/-- Calling it runs `async def` code: the innermost callable under any partials is an `async def` function or an object with an `async def __call__`. -/
inductive IsAsync : Callable → Prop where
  | fn : IsAsync (.fn true)
  | obj (h : Bool) : IsAsync (.obj true h)
  | partial_ {f : Callable} : IsAsync f → IsAsync (.partial_ f)

/-- The innermost callable is a function or method. -/
inductive OnFunction : Callable → Prop where
  | fn (a : Bool) : OnFunction (.fn a)
  | partial_ {f : Callable} : OnFunction f → OnFunction (.partial_ f)

theorem coroBody_iff {c : Callable} (h : OnFunction c) : coroBody c = true ↔ IsAsync c := by
  induction h with
  | fn a =>
    cases a
    · exact ⟨fun h => absurd h (by decide), fun h => by cases h⟩
    · exact ⟨fun _ => .fn, fun _ => rfl⟩
  | partial_ h ih =>
    constructor
    · intro hc; exact .partial_ (ih.1 hc)
    · intro hc; cases hc with
      | partial_ hc => exact ih.2 hc

theorem OnFunction.hashable {c : Callable} (h : OnFunction c) : c.hashable = true := by cases h <;> rfl

/-- C159: `is_coro_func` tells for every callable whether calling it runs async code, and `alcall` awaits the result then. This fails for objects with an async `__call__`, whose coroutine `alcall` returns instead of the result, and for objects that are not hashable, where both raise `TypeError`. -/
theorem C159_violation :
    (IsAsync (.obj true true) ∧ (isCoroFunc [] 0 (.obj true true)).2 = .ok false ∧ callFunc (ν := Nat) none (.obj true true) ⟨1, some 1, .value 5⟩ = .unawaited) ∧
    ((isCoroFunc [] 0 (.obj false false)).2 = .error .typeError ∧ callFunc (ν := Nat) none (.obj false false) ⟨1, some 1, .value 5⟩ = .typeError) :=
  ⟨⟨.obj _, rfl, rfl⟩, rfl, rfl⟩

/-- Every answer kept belongs to some callable asked before. -/
def Good (all : List (Nat × Callable)) (cache : Dict Nat Bool) : Prop := ∀ k b, cache.get? k = some b → ∃ c, (k, c) ∈ all ∧ coroBody c = b

theorem runCoro_eq (all : List (Nat × Callable)) (hall : ∀ p ∈ all, OnFunction p.2)
    (hkey : ∀ p ∈ all, ∀ q ∈ all, p.1 = q.1 → (IsAsync p.2 ↔ IsAsync q.2)) :
    ∀ (h : List (Nat × Callable)) (cache : Dict Nat Bool), Good all cache → (∀ p ∈ h, p ∈ all) →
      runCoro cache h = h.map (fun p => .ok (coroBody p.2)) := by
  have hb : ∀ p ∈ all, ∀ q ∈ all, p.1 = q.1 → coroBody p.2 = coroBody q.2 := by
    intro p hp q hq e
    rw [Bool.eq_iff_iff, coroBody_iff (hall p hp), coroBody_iff (hall q hq)]
    exact hkey p hp q hq e
  intro h
  induction h with
  | nil => intro _ _ _; rfl
  | cons p h ih =>
    obtain ⟨k, c⟩ := p
    intro cache hg hh
    have hm : (k, c) ∈ all := hh _ List.mem_cons_self
    have hh' : ∀ p ∈ h, p ∈ all := fun p hp => hh p (List.mem_cons_of_mem _ hp)
    simp only [runCoro, isCoroFunc, List.map_cons]
    rw [if_pos (hall _ hm).hashable]
    cases hc : cache.get? k with
    | some b =>
      simp only
      obtain ⟨c', hm', hc'⟩ := hg k b hc
      rw [ih cache hg hh', ← hc', hb _ hm' _ hm rfl]
    | none =>
      simp only
      rw [ih (cache.set k (coroBody c)) _ hh']
      intro k' b hb'
      rw [Dict.get?_set] at hb'
      by_cases e : k = k'
      · subst e; rw [if_pos rfl] at hb'; exact ⟨c, hm, Option.some.inj hb'⟩
      · rw [if_neg e] at hb'; exact hg k' b hb'

/-- C159 (partial): missing: callable objects. For functions, methods and partials of any depth over them, in any history of questions, every answer says whether that callable is async, provided callables that are equal (same key) are alike; no exception is raised. -/
theorem C159_is_coro_func_partial (h : List (Nat × Callable)) (hh : ∀ p ∈ h, OnFunction p.2)
    (hkey : ∀ p ∈ h, ∀ q ∈ h, p.1 = q.1 → (IsAsync p.2 ↔ IsAsync q.2)) :
    ∃ bs : List Bool, runCoro [] h = bs.map .ok ∧ bs.length = h.length ∧ ∀ q ∈ h.zip bs, (q.2 = true ↔ IsAsync q.1.2) := by
  refine ⟨h.map (fun p => coroBody p.2), ?_, by simp, ?_⟩
  · rw [runCoro_eq h hh hkey h [] (by intro k b hb; simp [Dict.get?] at hb) (fun p hp => hp), List.map_map]; rfl
  · intro q hq
    rw [List.zip_map_right, List.mem_map] at hq
    obtain ⟨⟨p, p'⟩, hp, rfl⟩ := hq
    have : p = p' ∧ p ∈ h := by
      clear hh hkey
      induction h with
      | nil => simp at hp
      | cons a l ih =>
        rw [List.zip_cons_cons, List.mem_cons] at hp
        rcases hp with hp | hp
        · obtain ⟨rfl, rfl⟩ := Prod.mk.inj hp; exact ⟨rfl, List.mem_cons_self⟩
        · exact ⟨(ih hp).1, List.mem_cons_of_mem _ (ih hp).2⟩
    obtain ⟨rfl, hm⟩ := this
    exact coroBody_iff (hh p hm)

/-- C159 (partial): for them `call_func` awaits async callables and calls the others in a thread; without timeout the outcome is the callee's. -/
theorem C159_call_partial (c : Callable) (h : OnFunction c) (j : Job ν) : callFunc none c j = .of j.ends := by
  unfold callFunc
  rw [if_pos h.hashable]
  have : c.unwrap.asyncObj = false := by
    induction h with
    | fn a => rfl
    | partial_ _ ih => exact ih
  split
  · rfl
  · simp [inThread, this]

example : OnFunction (.partial_ (.partial_ (.fn true))) ∧ coroBody (.partial_ (.partial_ (.fn true))) = true ∧ coroBody (.partial_ (.fn false)) = false :=
  ⟨.partial_ (.partial_ (.fn _)), rfl, rfl⟩

example : runCoro [] [(0, .fn true), (1, .partial_ (.fn false)), (0, .fn true)] = [.ok true, .ok false, .ok true] := by decide

/-! ### C160 -/

/-- C160: a call of the function that takes as long as `retry_timeout` or longer fails with `TimeoutError`. This fails for synchronous functions: the worker thread is waited for however long it takes, and the result is used. It also
fails for a coroutine function that does not suspend any more when the timeout passes. -/
theorem C160_violation : callFunc (ν := Nat) (some 1) (.fn false) ⟨1000, none, .value 5⟩ = .value 5 ∧ callFunc (ν := Nat) (some 1) (.fn true) ⟨1000, some 0, .value 5⟩ = .value 5 := ⟨rfl, rfl⟩

/-- C160 (partial): missing: synchronous functions, and coroutine functions that keep running without suspending. A coroutine function that is suspended until it ends is cut off by the timeout exactly if it takes that long, and otherwise its outcome is kept. -/
theorem C160_timeout_partial (c : Callable) (h : OnFunction c) (ha : IsAsync c) (t : Nat) (j : Job ν) (hj : j.lastAwait = some j.duration) :
    callFunc (some t) c j = if t ≤ j.duration then .timeout else .of j.ends := by
  unfold callFunc
  rw [if_pos h.hashable, if_pos ((coroBody_iff h).2 ha)]
  simp [awaited, Job.suspendedFrom, hj]

example : callFunc (ν := Nat) (some 10) (.partial_ (.fn true)) ⟨11, some 11, .value 5⟩ = .timeout ∧ callFunc (ν := Nat) (some 10) (.fn true) ⟨9, some 9, .exc 2⟩ = .exc 2 := by decide

/-! ### Exact rules for C159 and C160 -/

/-- `d` is what remains of `c` when all partials are taken off. -/
inductive Innermost : Callable → Callable → Prop where
  | fn (a : Bool) : Innermost (.fn a) (.fn a)
  | obj (a h : Bool) : Innermost (.obj a h) (.obj a h)
  | partial_ {c d : Callable} : Innermost c d → Innermost (.partial_ c) d

/-- The caller sees how the callee ended. -/
inductive SeenAs : End ν → Called ν → Prop where
  | value (v : ν) : SeenAs (.value v) (.value v)
  | exc (e : Nat) : SeenAs (.exc e) (.exc e)
  | base (e : Nat) : SeenAs (.base e) (.base e)

theorem seenAs_iff (e : End ν) (r : Called ν) : Called.of e = r ↔ SeenAs e r := by
  constructor
  · rintro rfl; cases e <;> constructor
  · intro h; cases h <;> rfl

theorem innermost_unwrap (c : Callable) : Innermost c c.unwrap := by
  induction c with
  | fn a => exact .fn a
  | obj a h => exact .obj a h
  | partial_ f ih => exact .partial_ ih

theorem innermost_eq {c d : Callable} (h : Innermost c d) : c.unwrap = d := by
  induction h with
  | fn a => rfl
  | obj a h => rfl
  | partial_ _ ih => exact ih

theorem hashable_iff (c : Callable) : c.hashable = false ↔ ∃ a, c = .obj a false := by
  cases c with
  | fn a => simp [Callable.hashable]
  | obj a h => cases h <;> simp [Callable.hashable]
  | partial_ f => simp [Callable.hashable]

theorem coroBody_exact (c : Callable) : coroBody c = true ↔ Innermost c (.fn true) := by
  unfold coroBody
  have h := innermost_unwrap c
  constructor
  · intro hc
    generalize c.unwrap = d at h hc
    cases d with
    | fn a => have : a = true := hc; subst this; exact h
    | obj a h => cases hc
    | partial_ f => cases hc
  · intro hc; rw [innermost_eq hc]; rfl

/-- C159: the exact answer for every callable: `TypeError` exactly for a callable object that is not hashable, otherwise `True` exactly if what remains without
partials is an `async def` function. -/
theorem C159_exact_partial (k : Nat) (c : Callable) (r : Except Exc Bool) :
    (isCoroFunc [] k c).2 = r ↔ ((∃ a, c = .obj a false) ∧ r = .error .typeError) ∨
      ((¬ ∃ a, c = .obj a false) ∧ ((Innermost c (.fn true) ∧ r = .ok true) ∨ (¬ Innermost c (.fn true) ∧ r = .ok false))) := by
  rw [← hashable_iff, ← coroBody_exact]
  unfold isCoroFunc
  cases c.hashable <;> cases coroBody c <;> simp [Dict.get?, eq_comm]

/-- It is suspended at time `t` or later. -/
def SuspendedFrom (j : Job ν) (t : Nat) : Prop := ∃ w, j.lastAwait = some w ∧ t ≤ w

theorem suspendedFrom_iff (j : Job ν) (t : Nat) : j.suspendedFrom t = true ↔ SuspendedFrom j t := by
  unfold Job.suspendedFrom SuspendedFrom
  cases j.lastAwait <;> simp

/-- C159, C160: the exact outcome of `call_func` for every callable, timeout and callee. -/
theorem C160_exact_partial (timeout : Option Nat) (c : Callable) (j : Job ν) (r : Called ν) : callFunc timeout c j = r ↔
    ((∃ a, c = .obj a false) ∧ r = .typeError) ∨
    ((¬ ∃ a, c = .obj a false) ∧
      ((Innermost c (.fn true) ∧ (((∃ t, timeout = some t ∧ SuspendedFrom j t) ∧ r = .timeout) ∨ ((∀ t, timeout = some t → ¬ SuspendedFrom j t) ∧ SeenAs j.ends r))) ∨
       (¬ Innermost c (.fn true) ∧ timeout = some 0 ∧ r = .timeout) ∨
       ((∃ h, Innermost c (.obj true h)) ∧ timeout ≠ some 0 ∧ r = .unawaited) ∨
       ((Innermost c (.fn false) ∨ ∃ h, Innermost c (.obj false h)) ∧ timeout ≠ some 0 ∧ SeenAs j.ends r))) := by
  have hin : ∀ d, Innermost c d ↔ c.unwrap = d := fun d => ⟨innermost_eq, fun h => h ▸ innermost_unwrap c⟩
  have hnp : ∀ f, c.unwrap ≠ .partial_ f := by
    intro f h
    clear hin
    have := innermost_unwrap c
    rw [h] at this
    clear h
    generalize hd : Callable.partial_ f = d at this
    induction this with
    | fn a => cases hd
    | obj a h => cases hd
    | partial_ _ ih => exact ih hd
  rw [← hashable_iff]
  simp only [hin, ← seenAs_iff]
  unfold callFunc coroBody
  cases c.hashable with
  | false => simp [eq_comm]
  | true =>
    cases hu : c.unwrap with
    | partial_ f => exact absurd hu (hnp f)
    | fn a =>
      cases a with
      | true =>
        cases timeout with
        | none => simp [Callable.isCoroFn, awaited]
        | some t =>
          by_cases ht : SuspendedFrom j t
          · simp [Callable.isCoroFn, awaited, (suspendedFrom_iff j t).2 ht, ht, eq_comm]
          · have : j.suspendedFrom t = false := by rw [← Bool.not_eq_true, suspendedFrom_iff]; exact ht
            simp [Callable.isCoroFn, awaited, this, ht]
      | false => by_cases h0 : timeout = some 0 <;> simp [Callable.isCoroFn, inThread, hu, Callable.asyncObj, h0, eq_comm]
    | obj a h => by_cases h0 : timeout = some 0 <;> cases a <;> simp [Callable.isCoroFn, inThread, hu, Callable.asyncObj, h0, eq_comm]

example : callFunc (ν := Nat) (some 3) (.partial_ (.obj true false)) ⟨1, some 1, .value 5⟩ = .unawaited ∧ Innermost (.partial_ (.obj true false)) (.obj true false) :=
  ⟨rfl, .partial_ (.obj _ _)⟩

end Verif.RunAsync
