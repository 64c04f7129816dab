import Verif.Py.Basic

/-! # Model of `Semaphore` (`src/lionherd_core/libs/concurrency/_primitives.py:48-72`)

The class hands every call to an AnyIO semaphore without an upper limit, whose documented behaviour is modelled here: a count of free slots and a queue of waiting calls.  One task
runs at a time and control changes only at awaits, so every operation below is one atomic step.  Calls of `acquire` are numbered in the order in which they are made. -/

namespace Verif.Semaphore

/-- Free slots, calls that wait, calls that have been given a slot but whose task has not run since, calls that have returned and whose slot has not been given back, and the number of the
next call (`_primitives.py:51`). -/
structure State where
  free : Nat
  waiting : List Nat := []
  granted : List Nat := []
  inside : List Nat := []
  next : Nat := 0
  deriving DecidableEq, Repr

/-- `__init__`, `_primitives.py:53-57`. -/
def init (n : Int) : Except Exc State := if n < 0 then .error .valueError else .ok { free := n.toNat }

/-- What happens: a call of `acquire` (`_primitives.py:58-60`), a waiting task that was given a slot goes on, a task is cancelled in `acquire`, a task gives its slot back
(`_primitives.py:62-64`; also the end of `async with`, 66-71), `release` by a task that has no slot. -/
inductive Op where
  | acquire
  | resume (k : Nat)
  | cancel (k : Nat)
  | release (k : Nat)
  | releaseExtra
  deriving DecidableEq, Repr

/-- `acquire`, `_primitives.py:58-60`: at once if a slot is free and nobody waits, else in line. -/
def acquire (s : State) : State :=
  if 0 < s.free ∧ s.waiting = [] then { s with free := s.free - 1, inside := s.inside ++ [s.next], next := s.next + 1 }
  else { s with waiting := s.waiting ++ [s.next], next := s.next + 1 }

/-- `release`, `_primitives.py:62-64`: the slot goes to the call that waits longest. -/
def giveBack (s : State) : State :=
  match s.waiting with
  | k :: ks => { s with waiting := ks, granted := s.granted ++ [k] }
  | [] => { s with free := s.free + 1 }

/-- A task that was given a slot goes on, `_primitives.py:60`. -/
def resume (s : State) (k : Nat) : State :=
  if s.granted.contains k then { s with granted := s.granted.erase k, inside := s.inside ++ [k] } else s

/-- A task is cancelled in `acquire`, `_primitives.py:60`: a waiting call leaves the queue; a slot that was given but not used is given back. -/
def cancel (s : State) (k : Nat) : State :=
  if s.waiting.contains k then { s with waiting := s.waiting.erase k }
  else if s.granted.contains k then giveBack { s with granted := s.granted.erase k }
  else s

/-- `release` by a task inside, `_primitives.py:62-64`. -/
def release (s : State) (k : Nat) : State :=
  if s.inside.contains k then giveBack { s with inside := s.inside.erase k } else s

/-- One step, `_primitives.py:48-72`. -/
def step (s : State) : Op → State
  | .acquire => acquire s
  | .resume k => resume s k
  | .cancel k => cancel s k
  | .release k => release s k
  | .releaseExtra => giveBack s

/-- A history, `_primitives.py:48-72`. -/
def run (s : State) (h : List Op) : State := h.foldl step s

end Verif.Semaphore
