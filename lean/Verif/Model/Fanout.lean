/-!
# Fan-out over a task group

Models the part shared by `gather` and `bounded_map` (`src/lionherd_core/libs/concurrency/_patterns.py:31-59, 87-127`) and `alcall` (`ln/_async_call.py:201-240`):
`n` tasks in one task group, each storing its outcome at its own index of a preallocated list.

What is assumed of AnyIO task groups (AnyIO 4, asyncio backend; not part of the repository):
* the group's scope is cancelled when a child ends with an exception, including a cancellation exception;
* the group collects the children's exceptions except cancellation exceptions; after all children have ended it raises them as one exception group;
* if there are none and the surrounding scope was cancelled the cancellation is raised, otherwise the block ends normally;
* a task in a cancelled scope receives the cancellation at some await, not necessarily at once.

Schedules are arbitrary lists of actions; an action that is not enabled changes nothing.
-/

namespace Verif.Fanout

/-- How awaiting something ends. `exc`: an `Exception`; `base`: another `BaseException` that is not a cancellation; `cancelled`: a cancellation exception.
Serves `record` (`_patterns.py:38-44`). -/
inductive Outcome where
  | ok (v : Nat)
  | exc (e : Nat)
  | base (e : Nat)
  | cancelled
  deriving DecidableEq, Repr

/-- Serves `record` (`_patterns.py:38-44`). -/
def Outcome.isOk : Outcome → Bool
  | .ok _ => true
  | _ => false

/-- State of a task: waiting for a slot (or not scheduled yet), running its awaitable, ended. Serves the model of `_patterns.py:38-44`. -/
inductive St where
  | waiting
  | running
  | ended
  deriving DecidableEq, Repr

/-- Parameters of a call: number of tasks, limit (`None` for `gather`), `return_exceptions`, whether a cancellation received while waiting for a slot is stored in the result list
(`alcall`: yes, the `async with semaphore` is inside the `try`; `bounded_map`: no), and how each awaitable ends if left alone.
Serves `record` (`_patterns.py:38-44`). -/
structure Cfg where
  n : Nat
  limit : Option Nat
  returnExc : Bool
  waitCaught : Bool := false
  res : Nat → Outcome

/-- `st`: tasks; `out`: the result list; `errs`: exceptions collected by the group, oldest first; `scope`: the group's scope is cancelled; `ext`: by the surroundings.
Serves `record` (`_patterns.py:38-44`). -/
structure Sys where
  st : Nat → St := fun _ => .waiting
  out : Nat → Option Outcome := fun _ => none
  errs : List (Nat × Outcome) := []
  scope : Bool := false
  ext : Bool := false

/-- Scheduler actions: a task gets its slot and calls/awaits; its awaitable ends by itself; it receives the cancellation and its awaitable reacts with `o`; the surroundings cancel.
Part of the model of `src/lionherd_core/libs/concurrency/_patterns.py:31-59, 87-127`. -/
inductive Act where
  | start (i : Nat)
  | finish (i : Nat)
  | cancel (i : Nat) (o : Outcome)
  | extCancel
  deriving DecidableEq, Repr

/-- Tasks in progress. Serves the model of `_patterns.py:38-44`. -/
def running (cfg : Cfg) (s : Sys) : List Nat := (List.range cfg.n).filter (fun i => s.st i == .running)

/-- `CapacityLimiter` / `Semaphore` has a free slot. Part of the model of `src/lionherd_core/libs/concurrency/_patterns.py:31-59, 87-127`. -/
def slotFree (cfg : Cfg) (s : Sys) : Bool :=
  match cfg.limit with
  | none => true
  | some k => decide ((running cfg s).length < k)

/-- Serves `record` (`_patterns.py:38-44`). -/
def upd {α : Type} (f : Nat → α) (i : Nat) (v : α) : Nat → α := fun j => if j = i then v else f j

/-- The end of a runner: `results[idx] = ...`, and `raise` unless `return_exceptions` (`_patterns.py:38-44`, `:108-115`, `_async_call.py:205-216`). -/
def record (cfg : Cfg) (s : Sys) (i : Nat) (o : Outcome) : Sys :=
  let s' := { s with st := upd s.st i .ended, out := upd s.out i (some o) }
  if o.isOk || cfg.returnExc then s'
  else if o = .cancelled then { s' with scope := true }
  else { s' with scope := true, errs := s.errs ++ [(i, o)] }

/-- One action. Built on `record` (`_patterns.py:38-44`). -/
def step (cfg : Cfg) (s : Sys) : Act → Sys
  | .start i => if i < cfg.n ∧ s.st i = .waiting ∧ slotFree cfg s = true then { s with st := upd s.st i .running } else s
  | .finish i => if i < cfg.n ∧ s.st i = .running then record cfg s i (cfg.res i) else s
  | .cancel i o =>
    if i < cfg.n ∧ s.scope = true then
      if s.st i = .running then record cfg s i o
      else if s.st i = .waiting then
        if cfg.waitCaught then record cfg s i .cancelled else { s with st := upd s.st i .ended }
      else s
    else s
  | .extCancel => { s with scope := true, ext := true }

/-- A schedule. Built on `record` (`_patterns.py:38-44`). -/
def run (cfg : Cfg) (acts : List Act) : Sys := acts.foldl (step cfg) {}

/-- How the whole call ends. Part of the model of `src/lionherd_core/libs/concurrency/_patterns.py:31-59, 87-127`. -/
inductive Final where
  | returned (l : List (Option Outcome))
  | raised (errs : List (Nat × Outcome))      -- the exception group, with the index each exception came from
  | cancelled
  deriving DecidableEq, Repr

/-- End of the `async with` block once every task has ended, and the `except ExceptionGroup` clause: with `return_exceptions` nothing is ever collected; otherwise the group without
cancellations is raised. Part of the model of `src/lionherd_core/libs/concurrency/_patterns.py:31-59, 87-127`. -/
def final (cfg : Cfg) (s : Sys) : Option Final :=
  if (List.range cfg.n).all (fun i => s.st i == .ended) then
    if s.errs ≠ [] then some (.raised s.errs)
    else if s.ext then some .cancelled
    else some (.returned ((List.range cfg.n).map s.out))
  else none

/-- `gather(*aws, return_exceptions=re)`. Part of the model of `src/lionherd_core/libs/concurrency/_patterns.py:31-59, 87-127`. -/
def gatherCfg (res : List Outcome) (re : Bool) : Cfg :=
  { n := res.length, limit := none, returnExc := re, res := fun i => res.getD i .cancelled }

/-- `bounded_map(func, items, limit=k, return_exceptions=re)`; `none`: `ValueError` (`_patterns.py:95-96`). -/
def boundedMapCfg (res : List Outcome) (k : Int) (re : Bool) : Option Cfg :=
  if k ≤ 0 then none
  else some { n := res.length, limit := some k.toNat, returnExc := re, res := fun i => res.getD i .cancelled }

end Verif.Fanout
