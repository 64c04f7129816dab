import Verif.Py.Basic

/-! # Model of `Lock` and `Condition` (`src/lionherd_core/libs/concurrency/_primitives.py:25-45, 214-253`)

Both classes hand every call to the AnyIO object of the same name, whose documented behaviour is modelled here: the lock belongs to a task and is passed on in the order of the calls; a task that waits for
the condition gives up the lock and, however the wait ends, takes the lock again, which cannot be cancelled.  One task runs at a time and control changes only at awaits, so every step below is
atomic.  Simplified: a cancellation at the checkpoint of an `acquire` that got the lock at once is a `release` of its own; `wait` by a task that does not hold the lock is not modelled (it does nothing
here). -/

namespace Verif.Condition

/-- Where a task is: not concerned; in `acquire` (`_primitives.py:35, 226`); holding the lock and running; in `wait` (`_primitives.py:241`), notified but not run since, taking the lock again at the end of
`wait`, notified (true) or cancelled (false). -/
inductive PC where
  | out | queued | inside | asleep | woken | back (ok : Bool)
  deriving DecidableEq, Repr

/-- What the tasks see of `wait`: it begins, the task is notified, the task is cancelled in it, it returns, it raises (`_primitives.py:239-249`). -/
inductive Ev where
  | slept (t : Nat)
  | notified (t : Nat)
  | cancelled (t : Nat)
  | returned (t : Nat)
  | raised (t : Nat)
  deriving DecidableEq, Repr

/-- The owner of the lock, the tasks in line for it, the tasks in `wait` that were not notified (`_primitives.py:30-31, 219-222`). -/
structure State where
  holder : Option Nat := none
  queue : List Nat := []
  waiters : List Nat := []
  pc : Nat → PC := fun _ => .out
  log : List Ev := []

/-- What happens: calls by a task, a notified task runs, a task to which the lock was passed runs, a task is cancelled (`_primitives.py:25-45, 214-253`). -/
inductive Op where
  | acquire (t : Nat)
  | release (t : Nat)
  | wait (t : Nat)
  | notify (t n : Nat)
  | notifyAll (t : Nat)
  | wake (t : Nat)
  | resume (t : Nat)
  | cancel (t : Nat)
  deriving DecidableEq, Repr

/-- Assignment to one place. Serves `State.goto` (`_primitives.py:25-45`). -/
def upd (g : Nat → PC) (t : Nat) (p : PC) : Nat → PC := fun i => if i = t then p else g i
/-- A task goes on to the given place. Serves `step` (`_primitives.py:25-45, 214-253`). -/
def State.goto (s : State) (t : Nat) (p : PC) : State := { s with pc := upd s.pc t p }
/-- The lock passes to the task that waits longest for it, `_primitives.py:37-39, 228-230`. -/
def State.give (s : State) : State := { s with holder := s.queue.head?, queue := s.queue.tail }
/-- The lock is free and nobody is in line. Serves `acquire` (`_primitives.py:33-35`). -/
def State.free (s : State) : Prop := s.holder = none ∧ s.queue = []
instance (s : State) : Decidable s.free := inferInstanceAs (Decidable (_ ∧ _))

/-- `acquire` and `__aenter__`, `_primitives.py:33-35, 41-43, 224-226, 232-234`: RuntimeError if the task has the lock. -/
def acquire (s : State) (t : Nat) : Res State Unit :=
  match s.pc t with
  | .inside => (s, .error .runtimeError)
  | .out => (if s.free then { s with holder := some t }.goto t .inside else { s with queue := s.queue ++ [t] }.goto t .queued, .ok ())
  | _ => (s, .ok ())
/-- `release` and `__aexit__`, `_primitives.py:37-39, 45, 228-230, 236-237`: RuntimeError if the task does not have the lock. -/
def release (s : State) (t : Nat) : Res State Unit :=
  match s.pc t with
  | .inside => ((s.goto t .out).give, .ok ())
  | .out => (s, .error .runtimeError)
  | _ => (s, .ok ())
/-- `wait` up to the point where it sleeps, `_primitives.py:239-241`. -/
def wait (s : State) (t : Nat) : Res State Unit :=
  match s.pc t with
  | .inside => (({ s with waiters := s.waiters ++ [t], log := s.log ++ [Ev.slept t] }.goto t .asleep).give, .ok ())
  | _ => (s, .ok ())
/-- The task that sleeps longest is notified. Serves `notify` (`_primitives.py:243-245`). -/
def notifyOne (s : State) : State :=
  match s.waiters with
  | [] => s
  | w :: ws => { s with waiters := ws, log := s.log ++ [Ev.notified w] }.goto w .woken
/-- As often as asked for. Serves `notify` (`_primitives.py:243-245`). -/
def notifyN : Nat → State → State
  | 0, s => s
  | n + 1, s => notifyN n (notifyOne s)
/-- `notify(n)`, `_primitives.py:243-245`: RuntimeError if the task does not have the lock. -/
def notify (s : State) (t n : Nat) : Res State Unit :=
  match s.pc t with
  | .inside => (notifyN n s, .ok ())
  | .out => (s, .error .runtimeError)
  | _ => (s, .ok ())
/-- How a wait ends, `_primitives.py:241`. -/
def ending (t : Nat) (ok : Bool) : Ev := if ok then .returned t else .raised t
/-- The end of `wait`: the lock is taken again, `_primitives.py:241`. -/
def rejoin (s : State) (t : Nat) (ok : Bool) : State :=
  if s.free then { s with holder := some t, log := s.log ++ [ending t ok] }.goto t .inside else { s with queue := s.queue ++ [t] }.goto t (.back ok)
/-- A notified task runs, `_primitives.py:241`. -/
def wake (s : State) (t : Nat) : State := if s.pc t = .woken then rejoin s t true else s
/-- The rest of `resume`: `acquire` returns or `wait` ends (`_primitives.py:35, 241`). -/
def goOn (s : State) (t : Nat) : PC → State
  | .queued => s.goto t .inside
  | .back ok => { s with log := s.log ++ [ending t ok] }.goto t .inside
  | _ => s
/-- A task to which the lock was passed runs, `_primitives.py:35, 226, 241`. -/
def resume (s : State) (t : Nat) : State := if s.holder = some t then goOn s t (s.pc t) else s
/-- A task is cancelled, `_primitives.py:35, 226, 241`: in `acquire` it leaves the line, or passes on the lock it was just given; in `wait`, notified or not, it takes the lock again and raises; while it
takes the lock again nothing happens. -/
def cancel (s : State) (t : Nat) : State :=
  match s.pc t with
  | .queued => if s.holder = some t then (s.goto t .out).give else { s with queue := s.queue.erase t }.goto t .out
  | .asleep => rejoin { s with waiters := s.waiters.erase t, log := s.log ++ [Ev.cancelled t] } t false
  | .woken => rejoin { s with log := s.log ++ [Ev.cancelled t] } t false
  | _ => s

/-- One step, `_primitives.py:25-45, 214-253`. -/
def step (s : State) : Op → Res State Unit
  | .acquire t => acquire s t
  | .release t => release s t
  | .wait t => wait s t
  | .notify t n => notify s t n
  | .notifyAll t => notify s t s.waiters.length
  | .wake t => (wake s t, .ok ())
  | .resume t => (resume s t, .ok ())
  | .cancel t => (cancel s t, .ok ())

/-- A history, `_primitives.py:25-45, 214-253`. -/
def run (s : State) (h : List Op) : State := h.foldl (fun s op => (step s op).1) s

end Verif.Condition
