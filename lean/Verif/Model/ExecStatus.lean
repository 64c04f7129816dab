import Verif.Model.Executor

/-!
# Model of the events' own statuses in an executor (`src/lionherd_core/base/processor.py:246-297, 385-414`, `src/lionherd_core/base/event.py:246-325`)

A layer on the executor's transition system: besides the status lists of the executor every event has its own `execution.status`.  `invoke()` changes the latter, `_update_progression`
reads it and changes the former.  Only non-streaming events (see `Model/Streaming.lean` for the others), and nobody but the executor invokes the events or assigns their statuses.
-/

namespace Verif.ExecStatus

open Verif.Event (Status)
open Verif.Executor (EFlow Ev)

/-- The executor, and the status of each event, stored or not (`event.py:225-228`). -/
structure Sys (γ : Type) where
  ex : Executor.Sys γ
  own : Nat → Status

/-- How `_invoke()` ends (`event.py:270-320`). -/
inductive Ending where
  | returned
  | raised
  | timedOut
  | cancelled
  | interrupted
deriving DecidableEq, Repr

/-- The status `invoke()` assigns at its end, if it assigns one: `event.py:277` (returned), `:290` (`TimeoutError`), `:312` (another `Exception`), `:320` (cancelled); any other
`BaseException` leaves it. -/
def assigned : Ending → Option Status
  | .returned => some .completed
  | .raised => some .failed
  | .timedOut => some .cancelled
  | .cancelled => some .cancelled
  | .interrupted => none

/-- Scheduler actions. Serves `step` (`processor.py:273-279`). -/
inductive Act (γ : Type) where
  | base (a : Executor.Act γ)           -- anything but the end of a started event
  | enter (k : Nat)                     -- the `k`-th started event gets its slot and `invoke()` begins
  | leave (k : Nat) (e : Ending)        -- the body of the `k`-th started event ends
  | file (k : Nat)                      -- the `finally` of `invoke_and_update` for the `k`-th started event
  | vanish (k : Nat)                    -- the task of the `k`-th started event is cancelled before it files the event

/-- The end of a started event is not a `base` action. Serves the model of `processor.py:273-279`. -/
def ends {γ : Type} : Executor.Act γ → Bool
  | .finish _ _ => true
  | .vanish _ => true
  | _ => false

/-- Assign a status to an event. Serves the model of `event.py:262, 277`. -/
def assign (own : Nat → Status) (id : Nat) (st : Status) : Nat → Status := fun x => if x = id then st else own x

/-- `invoke()` begins, `event.py:255-262`: unless the event is pending it returns at once. -/
def entered (own : Nat → Status) (id : Nat) : Nat → Status := if own id = .pending then assign own id .processing else own

/-- The body ends, `event.py:270-320`. -/
def left (own : Nat → Status) (id : Nat) (e : Ending) : Nat → Status :=
  match assigned e with
  | none => own
  | some st => if own id = .processing then assign own id st else own

variable {γ : Type} [DecidableEq γ]

/-- One step.  `file` is possible once `invoke()` has begun (`processor.py:274-279`: the `finally` clause follows the call); the status to file the event under is then read from the event
(`processor.py:395`). -/
def step (sub : γ → γ → Bool) (c : Processor.Cfg) (s : Sys γ) : Act γ → Sys γ
  | .base a => if ends a then s else { s with ex := Executor.step sub c s.ex a }
  | .enter k =>
    match s.ex.runs[k]? with
    | none => s
    | some r => { s with own := entered s.own r.2 }
  | .leave k e =>
    match s.ex.runs[k]? with
    | none => s
    | some r => { s with own := left s.own r.2 e }
  | .file k =>
    match s.ex.runs[k]? with
    | none => s
    | some r => if s.own r.2 = .pending then s else { s with ex := Executor.step sub c s.ex (.finish k (s.own r.2)) }
  | .vanish k => { s with ex := Executor.step sub c s.ex (.vanish k) }

/-- A schedule. Built on `step` (`processor.py:273-279`). -/
def run (sub : γ → γ → Bool) (c : Processor.Cfg) (s : Sys γ) (as : List (Act γ)) : Sys γ := as.foldl (step sub c) s

/-- A new executor (`processor.py:345-373`); `own` are the statuses of the events that will be appended. -/
def init (pid : Status → Nat) (cls : List γ) (strict : Bool) (own : Nat → Status) : Sys γ := { ex := Executor.init pid cls strict, own := own }

end Verif.ExecStatus
