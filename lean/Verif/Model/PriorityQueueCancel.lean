import Verif.Model.PriorityQueue

/-!
# `PriorityQueue` with cancellation of calls

`src/lionherd_core/libs/concurrency/_priority_queue.py` as in `Verif/Model/PriorityQueue.lean`, with calls cancelled while they are blocked.  A call is blocked
- before it has the lock for the first time (`fresh`, cancelled inside `Lock.acquire`),
- in `condition.wait()` before it is notified (`waiters`; anyio's `Condition.wait` takes the call out of the waiters, acquires the lock in a shielded scope and
  releases it again while the exception propagates through `async with`),
- after it is notified and before it has the lock again (`woken`).

Cancellation by a cancel scope never interrupts a notified call: it reacquires the lock in a shielded scope and finishes, or runs into the checkpoint of the next
`wait()`, which is `runWoken` followed by `cancelWaiting`.  Cancellation of the task from outside anyio (`asyncio.Task.cancel`) can interrupt it before it resumes
(`interrupt`); anyio versions differ in whether `Condition.wait` then notifies the next waiter (`handOn`).
-/

namespace Verif.PriorityQueueCancel

open PriorityQueue (Op Obs full)

variable {τ α : Type}

/-- State: the heap list, the calls that never had the lock, the notified calls, the waiting calls (longest waiting first) and the log.
Serves `pushNotify` (`_priority_queue.py:54-55, 70-72`). -/
structure Sys (τ α : Type) where
  queue : List α := []
  fresh : List (τ × Op α) := []
  woken : List (τ × Op α) := []
  waiters : List (τ × Op α) := []
  log : List (Obs τ α) := []
  deriving DecidableEq, Repr

/-- `self._condition.notify()`. Serves `pushNotify` (`_priority_queue.py:54-55, 70-72`). -/
def notify (s : Sys τ α) : Sys τ α :=
  match s.waiters with
  | [] => s
  | w :: ws => { s with woken := s.woken ++ [w], waiters := ws }

/-- `heapq.heappush(self._queue, item); self._condition.notify()`, `_priority_queue.py:54-55, 70-72`. -/
def pushNotify (lt : α → α → Bool) (s : Sys τ α) (t : τ) (x : α) : Sys τ α :=
  notify { s with queue := Heapq.push lt s.queue x, log := s.log ++ [.put t x] }

/-- `self._condition.wait()` in the `while` loops, `_priority_queue.py:51-52, 82-83`. -/
def wait (s : Sys τ α) (t : τ) (op : Op α) : Sys τ α := { s with waiters := s.waiters ++ [(t, op)] }

/-- The body of a call from having the lock to the next release, `_priority_queue.py:43-105`. -/
def exec (lt : α → α → Bool) (maxsize : Int) (s : Sys τ α) (t : τ) : Op α → Sys τ α
  | .put x => if full maxsize s.queue then wait s t (.put x) else pushNotify lt s t x
  | .putNowait x => if full maxsize s.queue then { s with log := s.log ++ [.full t] } else pushNotify lt s t x
  | .get =>
    match Heapq.pop lt s.queue with
    | none => wait s t .get
    | some (x, q) => notify { s with queue := q, log := s.log ++ [.got t x] }
  | .getNowait =>
    match Heapq.pop lt s.queue with
    | none => { s with log := s.log ++ [.empty t] }
    | some (x, q) => notify { s with queue := q, log := s.log ++ [.got t x] }

/-- Scheduler actions. Built on `wait` (`_priority_queue.py:51-52, 82-83`). -/
inductive Act (τ α : Type) where
  | call (t : τ) (op : Op α)
  | runFresh (i : Nat)       -- a new call gets the lock
  | runWoken (i : Nat)       -- a notified call gets the lock
  | cancelFresh (i : Nat)    -- a call is cancelled before it had the lock
  | cancelWaiting (i : Nat)  -- a call is cancelled in `wait()`
  | interrupt (i : Nat)      -- a notified call is cancelled before it resumes

/-- A notified call gets the exception instead of resuming from the `wait()` of `_priority_queue.py:52, 83`. -/
def interrupted (handOn : Bool) (s : Sys τ α) : Sys τ α := if handOn then notify s else s

/-- One step. Built on `exec` (`_priority_queue.py:43-105`). -/
def step (lt : α → α → Bool) (maxsize : Int) (handOn : Bool) (s : Sys τ α) : Act τ α → Sys τ α
  | .call t op => { s with fresh := s.fresh ++ [(t, op)] }
  | .runFresh i =>
    match s.fresh[i]? with
    | none => s
    | some (t, op) => exec lt maxsize { s with fresh := s.fresh.eraseIdx i } t op
  | .runWoken i =>
    match s.woken[i]? with
    | none => s
    | some (t, op) => exec lt maxsize { s with woken := s.woken.eraseIdx i } t op
  | .cancelFresh i => { s with fresh := s.fresh.eraseIdx i }
  | .cancelWaiting i => { s with waiters := s.waiters.eraseIdx i }
  | .interrupt i =>
    match s.woken[i]? with
    | none => s
    | some _ => interrupted handOn { s with woken := s.woken.eraseIdx i }

/-- A schedule. Built on `wait` (`_priority_queue.py:51-52, 82-83`). -/
def run (lt : α → α → Bool) (maxsize : Int) (handOn : Bool) (s : Sys τ α) (as : List (Act τ α)) : Sys τ α := as.foldl (step lt maxsize handOn) s

end Verif.PriorityQueueCancel
