import Verif.Py.Basic

/-! # Model of `TaskGroup` and `create_task_group` (`src/lionherd_core/libs/concurrency/_task.py:21-58`)

The class hands every call to an AnyIO task group, whose documented behaviour is modelled here.  Tasks are numbered in the order in which they are started; an exception is a number.  A
history lists what happens, one thing at a time; `step` gives `none` for what cannot happen.  Left out: cancellation from outside the block, and cancellations that a task raises by itself. -/

namespace Verif.TaskGroup

/-- Where a task is: not started yet, started by `start` and not initialised, running, ended. Serves `State` (`_task.py:35-51`). -/
inductive Phase where
  | absent
  | starting
  | running
  | ended
  deriving DecidableEq, Repr

/-- What `await start(...)` gives: the value the task reported, the exception of the task, RuntimeError because the task returned without a report, or the cancellation of the task. Serves
`State` (`_task.py:44-51`). -/
inductive Answer where
  | value (v : Nat)
  | raised (e : Nat)
  | noReport
  | cancelled
  deriving DecidableEq, Repr

/-- The tasks, the number of the next task, whether the body of the block runs, the exceptions collected, whether the scope of the group is cancelled, whether the block has been left, and the
outcomes of the calls of `start` (`_task.py:24-33`). -/
structure State where
  phase : Nat → Phase := fun _ => .absent
  next : Nat := 0
  body : Bool := true
  errors : List Nat := []
  cancelled : Bool := false
  left : Bool := false
  answers : List (Nat × Answer) := []

/-- What happens: `start_soon` (`_task.py:35-42`), `start` (44-51), `task_status.started(v)` in a task, a task returns, raises, or ends by the cancellation, after or before its report; the body of
the block returns, raises or ends by the cancellation; `cancel_scope.cancel()` (30-33); the block is left (54-58). -/
inductive Op where
  | startSoon
  | start
  | started (k v : Nat)
  | ret (k : Nat)
  | raise (k e : Nat)
  | unwind (k : Nat)
  | retEarly (k : Nat)
  | raiseEarly (k e : Nat)
  | unwindEarly (k : Nat)
  | bodyRet
  | bodyRaise (e : Nat)
  | bodyUnwind
  | cancel
  | leave
  deriving DecidableEq, Repr

/-- Assignment to one place. Serves `step` (`_task.py:35-51`). -/
def upd (g : Nat → Phase) (k : Nat) (p : Phase) : Nat → Phase := fun i => if i = k then p else g i

/-- The outcome of `start_soon` and `start` as far as the group is concerned: RuntimeError once the block has been left, `_task.py:42, 51`. -/
def mayStart (s : State) : Except Exc Unit := if s.left then .error .runtimeError else .ok ()

/-- A new task. Serves `step` (`_task.py:35-51`). -/
def begin (s : State) (p : Phase) : Option State := if s.left then none else some { s with phase := upd s.phase s.next p, next := s.next + 1 }
/-- A task that runs ends. Serves `step` (`_task.py:35-51`). -/
def finish (s : State) (k : Nat) : Option State := if s.phase k = .running then some { s with phase := upd s.phase k .ended } else none
/-- A task moves on from the phase before its report, with an answer for `start`. Serves `step` (`_task.py:44-51`). -/
def answer (s : State) (k : Nat) (p : Phase) (a : Answer) : Option State :=
  if s.phase k = .starting then some { s with phase := upd s.phase k p, answers := s.answers ++ [(k, a)] } else none
/-- An exception is collected and the scope is cancelled. Serves `step` (`_task.py:55-58`). -/
def failed (s : State) (e : Nat) : State := { s with errors := s.errors ++ [e], cancelled := true }
/-- All tasks have ended. Serves `step` (`_task.py:55-58`). -/
def allEnded (s : State) : Bool := (List.range s.next).all fun k => decide (s.phase k = .ended)

/-- One step, `_task.py:24-58`. -/
def step (s : State) : Op → Option State
  | .startSoon => begin s .running
  | .start => begin s .starting
  | .started k v => answer s k .running (.value v)
  | .ret k => finish s k
  | .raise k e => (finish s k).map fun t => failed t e
  | .unwind k => if s.cancelled then finish s k else none
  | .retEarly k => answer s k .ended .noReport
  | .raiseEarly k e => answer s k .ended (.raised e)
  | .unwindEarly k => if s.cancelled then answer s k .ended .cancelled else none
  | .bodyRet => if s.body then some { s with body := false } else none
  | .bodyRaise e => if s.body then some (failed { s with body := false } e) else none
  | .bodyUnwind => if s.body && s.cancelled then some { s with body := false } else none
  | .cancel => some { s with cancelled := true }
  | .leave => if !s.body && !s.left && allEnded s then some { s with left := true } else none

/-- A history, `_task.py:24-58`. -/
def run (s : State) : List Op → Option State
  | [] => some s
  | op :: h => (step s op).bind fun t => run t h

/-- How the block ends: normally, or with the group of the exceptions collected, `_task.py:54-58`. -/
def outcome (s : State) : Except (List Nat) Unit := if s.errors = [] then .ok () else .error s.errors

end Verif.TaskGroup
