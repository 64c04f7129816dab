import Verif.Py.Basic

/-!
# Model of `async with pile`

`Pile.__aenter__` and `__aexit__` (`src/lionherd_core/base/pile.py:584-591`) acquire and release the lock `_async_lock`, a
`concurrency.Lock` (`src/lionherd_core/libs/concurrency/_primitives.py:27-46`), which wraps `anyio.Lock` (library behaviour, asyncio
backend).  The methods of the pile do not look at this lock.  Any number of tasks; a schedule is a list of actions; an action a task cannot
take (it is suspended) changes nothing.
-/

namespace Verif.PileScope

/-- What happens, in order: a task begins `async with pile`; it enters the block; it leaves the block; it is cancelled before it enters; its
attempt raises RuntimeError; it calls a method of the pile. Serves the model of `pile.py:584-587`. -/
inductive Ev (ω : Type) where
  | asked (t : Nat)
  | entered (t : Nat)
  | left (t : Nat)
  | gaveUp (t : Nat)
  | refused (t : Nat)
  | did (t : Nat) (o : ω)
  deriving DecidableEq

/-- The lock: the task that owns it and whether that task has resumed (is in the block); the tasks that wait. Serves `acquire` (`pile.py:584-587`). -/
structure Sys (σ ω : Type) where
  pile : σ
  owner : Option (Nat × Bool)
  waiting : List Nat
  log : List (Ev ω)

/-- Actions. `enter t`: task `t` begins `async with pile`; `resume t`: it is scheduled again; `exit t`: it reaches the end of the block (or an
exception leaves it); `cancel t`: it is cancelled while entering; `call t o`: it calls the method `o` of the pile.
Part of the model of `src/lionherd_core/base/pile.py:584-591`. -/
inductive Act (ω : Type) where
  | enter (t : Nat)
  | resume (t : Nat)
  | exit (t : Nat)
  | cancel (t : Nat)
  | call (t : Nat) (o : ω)

variable {σ ω : Type}

/-- Part of the model of `src/lionherd_core/base/pile.py:584-591`. -/
def init (p : σ) : Sys σ ω := ⟨p, none, [], []⟩

/-- Task `t` is suspended in `acquire`. Part of the model of `src/lionherd_core/base/pile.py:584-591`. -/
def suspended (s : Sys σ ω) (t : Nat) : Bool := decide (s.owner = some (t, false)) || s.waiting.contains t

/-- `lock.release()`: the lock is handed to the first waiter. Part of the model of `src/lionherd_core/base/pile.py:584-591`. -/
def release (s : Sys σ ω) : Sys σ ω :=
  match s.waiting with
  | [] => { s with owner := none }
  | u :: us => { s with owner := some (u, false), waiting := us }

/-- `lock.acquire()`, called by `__aenter__`, `pile.py:584-587`: a free lock is taken at once, but the task yields before it continues; a task
that holds the lock gets RuntimeError; otherwise the task waits in line. -/
def acquire (s : Sys σ ω) (t : Nat) : Sys σ ω :=
  match s.owner with
  | none => { s with owner := some (t, false), log := s.log ++ [.asked t] }
  | some (u, _) =>
    if u = t then { s with log := s.log ++ [.refused t] }
    else { s with waiting := s.waiting ++ [t], log := s.log ++ [.asked t] }

/-- One action. Built on `acquire` (`pile.py:584-587`). -/
def step (apply : σ → ω → σ) (s : Sys σ ω) : Act ω → Sys σ ω
  | .enter t => if suspended s t then s else acquire s t
  | .resume t => if s.owner = some (t, false) then { s with owner := some (t, true), log := s.log ++ [.entered t] } else s
  | .exit t => if s.owner = some (t, true) then release { s with log := s.log ++ [.left t] } else s
  | .cancel t =>
    if s.owner = some (t, false) then release { s with log := s.log ++ [.gaveUp t] }
    else if s.waiting.contains t then { s with waiting := s.waiting.erase t, log := s.log ++ [.gaveUp t] }
    else s
  | .call t o => if suspended s t then s else { s with pile := apply s.pile o, log := s.log ++ [.did t o] }

/-- Built on `acquire` (`pile.py:584-587`). -/
def run (apply : σ → ω → σ) (s : Sys σ ω) (as : List (Act ω)) : Sys σ ω := as.foldl (step apply) s

end Verif.PileScope
