import Verif.Py.Heapq

/-!
# Model of `src/lionherd_core/libs/concurrency/_priority_queue.py`

Any number of tasks call `put`, `put_nowait`, `get`, `get_nowait`.  Every method body runs inside `async with self._condition`
and releases the lock only by finishing or by `condition.wait()`, so the code between acquiring the lock and the next
release is one atomic step (`run`); which task that is ready for the lock gets it next is up to the scheduler.
`Condition.notify()` moves the longest waiting task to the tasks that are ready for the lock (`_primitives.py`, anyio's `Condition`);
`wait()` puts the task at the end of the waiters.  Cancellation of blocked calls is in `Verif/Model/PriorityQueueCancel.lean`.
-/

namespace Verif.PriorityQueue

variable {τ α : Type}

/-- A method call. Serves `wait` (`_priority_queue.py:51-52, 82-83`). -/
inductive Op (α : Type) where
  | put (x : α)
  | putNowait (x : α)
  | get
  | getNowait
  deriving DecidableEq, Repr

/-- What the calls have done, oldest first. Serves the model of `_priority_queue.py:54-55, 70-72`. -/
inductive Obs (τ α : Type) where
  | put (t : τ) (x : α)
  | got (t : τ) (x : α)
  | full (t : τ)       -- `put_nowait` raised `QueueFull`
  | empty (t : τ)      -- `get_nowait` raised `QueueEmpty`
  deriving DecidableEq, Repr

/-- State: the heap list `_queue`, the calls ready to take the lock, the calls blocked in `condition.wait()` (longest waiting first), and the
observation log. Serves `pushNotify` (`_priority_queue.py:54-55, 70-72`). -/
structure Sys (τ α : Type) where
  queue : List α := []
  ready : List (τ × Op α) := []
  waiters : List (τ × Op α) := []
  log : List (Obs τ α) := []
  deriving DecidableEq, Repr

/-- `self.maxsize > 0 and len(self._queue) >= self.maxsize`, `_priority_queue.py:51, 67, 135`. -/
def full (maxsize : Int) (q : List α) : Bool := decide (0 < maxsize) && decide (maxsize ≤ q.length)

/-- `self._condition.notify()`. Serves `pushNotify` (`_priority_queue.py:54-55, 70-72`). -/
def notify (s : Sys τ α) : Sys τ α :=
  match s.waiters with
  | [] => s
  | w :: ws => { s with ready := s.ready ++ [w], waiters := ws }

/-- `heapq.heappush(self._queue, item); self._condition.notify()`, `_priority_queue.py:54-55, 70-72`. -/
def pushNotify (lt : α → α → Bool) (s : Sys τ α) (t : τ) (x : α) : Sys τ α :=
  notify { s with queue := Heapq.push lt s.queue x, log := s.log ++ [.put t x] }

/-- `self._condition.wait()` in the `while` loops, `_priority_queue.py:51-52, 82-83`. -/
def wait (s : Sys τ α) (t : τ) (op : Op α) : Sys τ α := { s with waiters := s.waiters ++ [(t, op)] }

/-- The body of a call from acquiring the lock to the next release, `_priority_queue.py:43-105`. -/
def exec (lt : α → α → Bool) (maxsize : Int) (s : Sys τ α) (t : τ) : Op α → Sys τ α
  | .put x => if full maxsize s.queue then wait s t (.put x) else pushNotify lt s t x
  | .putNowait x => if full maxsize s.queue then { s with log := s.log ++ [.full t] } else pushNotify lt s t x
  | .get =>
    match Heapq.pop lt s.queue with
    | none => wait s t .get
    | some (x, q) => notify { s with queue := q, log := s.log ++ [.got t x] }
  | .getNowait =>
    match Heapq.pop lt s.queue with
    | none => { s with log := s.log ++ [.empty t] }
    | some (x, q) => notify { s with queue := q, log := s.log ++ [.got t x] }

/-- Scheduler actions: a task calls a method, or the `i`-th ready call gets the lock. Built on `exec` (`_priority_queue.py:43-105`). -/
inductive Act (τ α : Type) where
  | call (t : τ) (op : Op α)
  | run (i : Nat)

/-- One step. Built on `exec` (`_priority_queue.py:43-105`). -/
def step (lt : α → α → Bool) (maxsize : Int) (s : Sys τ α) : Act τ α → Sys τ α
  | .call t op => { s with ready := s.ready ++ [(t, op)] }
  | .run i =>
    match s.ready[i]? with
    | none => s
    | some (t, op) => exec lt maxsize { s with ready := s.ready.eraseIdx i } t op

/-- A schedule. Built on `exec` (`_priority_queue.py:43-105`). -/
def run (lt : α → α → Bool) (maxsize : Int) (s : Sys τ α) (as : List (Act τ α)) : Sys τ α := as.foldl (step lt maxsize) s

/-- `qsize`, `_priority_queue.py:107-115`. -/
def qsize (s : Sys τ α) : Nat := s.queue.length

/-- `empty`, `_priority_queue.py:117-125`. -/
def isEmpty (s : Sys τ α) : Bool := s.queue.length == 0

end Verif.PriorityQueue
