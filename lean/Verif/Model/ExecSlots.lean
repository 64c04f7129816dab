import Verif.Model.Executor

/-!
# Model of `_with_semaphore` and the concurrency limit (`src/lionherd_core/base/processor.py:80-82, 111, 313-318`)

A layer on the executor's transition system: each event started by a `process()` call is a task that first waits for a slot of the semaphore created in `Processor.__init__`, then runs
`invoke_and_update` or `consume_stream`, and gives the slot back at its end, however it ends.  The semaphore itself is anyio's: a number of free slots; which of several waiting tasks gets a
free slot is left open.
-/

namespace Verif.ExecSlots

open Verif.Event (Status)
open Verif.Executor (EFlow Ev)

/-- The executor, for each of its started events (`runs`, in the same order) whether it has a slot, and the free slots.
Serves `base` (`processor.py:268, 279`). -/
structure Sys (γ : Type) where
  ex : Executor.Sys γ
  has : List Bool := []
  free : Nat

/-- Scheduler actions. Serves `base` (`processor.py:268, 279`). -/
inductive Act (γ : Type) where
  | base (a : Executor.Act γ)       -- anything but the end of a started event
  | enter (k : Nat)                 -- the `k`-th started event gets a slot
  | finish (k : Nat) (st : Status)  -- the `k`-th started event, which has a slot, ends with status `st` and is filed
  | vanish (k : Nat)                -- the `k`-th started event is cancelled, waiting or not

/-- The end of a started event is not a `base` action. Serves the model of `processor.py:268, 279`. -/
def ends {γ : Type} : Executor.Act γ → Bool
  | .finish _ _ => true
  | .vanish _ => true
  | _ => false

variable {γ : Type} [DecidableEq γ]

/-- What the executor does besides: newly started events wait for a slot, `processor.py:268, 279` (`tg.start_soon(self._with_semaphore, ...)`). -/
def base (sub : γ → γ → Bool) (c : Processor.Cfg) (s : Sys γ) (a : Executor.Act γ) : Sys γ :=
  { s with ex := Executor.step sub c s.ex a, has := s.has ++ List.replicate ((Executor.step sub c s.ex a).runs.length - s.ex.runs.length) false }

/-- The slot that an ending task gives back, `processor.py:316` (`__aexit__` of the semaphore). -/
def back (b : Bool) : Nat := if b then 1 else 0

/-- One step. Serves `base` (`processor.py:268, 279`). -/
def step (sub : γ → γ → Bool) (c : Processor.Cfg) (s : Sys γ) : Act γ → Sys γ
  | .base a => if ends a then s else base sub c s a
  | .enter k => if s.has[k]? = some false ∧ 0 < s.free then { s with has := s.has.set k true, free := s.free - 1 } else s
  | .finish k st =>
    if s.has[k]? = some true then { ex := Executor.step sub c s.ex (.finish k st), has := s.has.eraseIdx k, free := s.free + 1 } else s
  | .vanish k =>
    match s.has[k]? with
    | none => s
    | some b => { ex := Executor.step sub c s.ex (.vanish k), has := s.has.eraseIdx k, free := s.free + back b }

/-- A schedule. Built on `base` (`processor.py:268, 279`). -/
def run (sub : γ → γ → Bool) (c : Processor.Cfg) (s : Sys γ) (as : List (Act γ)) : Sys γ := as.foldl (step sub c) s

/-- A new executor, whose processor will have `limit` slots (`concurrency.Semaphore(concurrency_limit)`, `processor.py:111`).  Simplified: the semaphore exists from the beginning; no event is
started before the processor is created. -/
def init (pid : Status → Nat) (cls : List γ) (strict : Bool) (limit : Nat) : Sys γ := { ex := Executor.init pid cls strict, free := limit }

end Verif.ExecSlots
