import Verif.Py.Basic

/-! # Model of `Event` (`src/lionherd_core/libs/concurrency/_primitives.py:189-211`)

The class hands every call to an AnyIO event, whose documented behaviour is modelled here: a flag that is never cleared and the calls of `wait` that have not returned.  One task runs at a
time and control changes only at awaits, so every operation below is one atomic step.  Calls of `wait` are numbered in the order in which they are made. -/

namespace Verif.EventFlag

/-- The flag, calls of `wait` that have not returned, calls that wait and may go on, calls that have returned, the number of the next call (`_primitives.py:192-195`). -/
structure State where
  flag : Bool := false
  waiting : List Nat := []
  ready : List Nat := []
  returned : List Nat := []
  next : Nat := 0
  deriving DecidableEq, Repr

/-- What happens: `set` (`_primitives.py:197-199`), a call of `wait` (`_primitives.py:205-207`), the task of a call that may go on runs, the task of a call is cancelled in `wait`. -/
inductive Op where
  | set
  | wait
  | resume (k : Nat)
  | cancel (k : Nat)
  deriving DecidableEq, Repr

/-- `set`, `_primitives.py:197-199`: every call that waits may go on. -/
def set (s : State) : State := { s with flag := true, ready := s.ready ++ s.waiting, waiting := [] }

/-- `wait`, `_primitives.py:205-207`: with the flag set the call only gives other tasks a turn, else it waits. -/
def wait (s : State) : State :=
  if s.flag then { s with ready := s.ready ++ [s.next], next := s.next + 1 } else { s with waiting := s.waiting ++ [s.next], next := s.next + 1 }

/-- The task of a call that may go on runs, `_primitives.py:207`. -/
def resume (s : State) (k : Nat) : State :=
  if s.ready.contains k then { s with ready := s.ready.erase k, returned := s.returned ++ [k] } else s

/-- The task of a call is cancelled in `wait`, `_primitives.py:207`: the call ends with the cancellation and does not return. -/
def cancel (s : State) (k : Nat) : State := { s with waiting := s.waiting.erase k, ready := s.ready.erase k }

/-- One step, `_primitives.py:189-211`. -/
def step (s : State) : Op → State
  | .set => set s
  | .wait => wait s
  | .resume k => resume s k
  | .cancel k => cancel s k

/-- A history, `_primitives.py:189-211`. -/
def run (s : State) (h : List Op) : State := h.foldl step s

/-- `is_set`, `_primitives.py:201-203`. -/
def isSet (s : State) : Bool := s.flag

/-- `statistics().tasks_waiting`, `_primitives.py:209-211`. -/
def tasksWaiting (s : State) : Nat := s.waiting.length

end Verif.EventFlag
