/-!
# When `alcall` calls the function (`src/lionherd_core/ln/_async_call.py`)

Times of `alcall`: the initial delay, the delay between starting tasks, the semaphore, and the delays between the attempts on one item.
`sleep(d)` lasts at least `d`; everything else may be delayed by the scheduler without bound (action `pass`).
Times of the schedule are natural numbers of an arbitrary unit; the delays between attempts, which are multiplied by a factor, are rationals.
-/

namespace Verif.AlcallTime

/-- Parameters: `delay_before_start`, `throttle_period` (absent or zero is 0), number of items and the size of the semaphore, if there is one.
Serves `step` (`_async_call.py:144-149, 201-225`). -/
structure Cfg where
  before : Nat := 0
  throttle : Nat := 0
  n : Nat
  limit : Option Nat := none

/-- `clock`: now; `next`: how many tasks the loop has started; for each item when its task was started, when the function was called first, and whether its task has ended.
Serves `step` (`_async_call.py:144-149, 201-225`). -/
structure Sys where
  clock : Nat := 0
  next : Nat := 0
  started : Nat → Option Nat := fun _ => none
  called : Nat → Option Nat := fun _ => none
  ended : Nat → Bool := fun _ => false

/-- The schedule: time passes; the loop starts the next task; a task gets its slot and calls the function; a task ends.
Serves `step` (`_async_call.py:144-149, 201-225`). -/
inductive Act where
  | pass (d : Nat)
  | start
  | call (i : Nat)
  | finish (i : Nat)
  deriving DecidableEq, Repr

/-- Changing a function at one item. Serves `step` (`_async_call.py:144-149, 201-225`). -/
def upd {α : Type} (f : Nat → α) (i : Nat) (v : α) : Nat → α := fun j => if j = i then v else f j

/-- Tasks between the first call and the end: they hold a slot (also while they sleep between attempts). Serves `slotFree` (`_async_call.py:148, 205-210`). -/
def active (c : Cfg) (s : Sys) : List Nat := (List.range c.n).filter (fun i => (s.called i).isSome && !s.ended i)

/-- The semaphore, if any, has a free slot, `_async_call.py:148, 205-210`. -/
def slotFree (c : Cfg) (s : Sys) : Bool :=
  match c.limit with
  | none => true
  | some k => decide ((active c s).length < k)

/-- The time before which the loop does not start its next task: after `sleep(delay_before_start)` the first one, after `sleep(throttle_delay)` each further one,
`_async_call.py:144-146, 218-225`. -/
def due (c : Cfg) (s : Sys) : Nat :=
  match s.next with
  | 0 => c.before
  | k + 1 => (s.started k).getD 0 + c.throttle

/-- The loop can start a task now. Serves `step` (`_async_call.py:144-149, 201-225`). -/
def canStart (c : Cfg) (s : Sys) : Bool := decide (s.next < c.n) && decide (due c s ≤ s.clock)

/-- The task of item `i` can call the function now. Serves `step` (`_async_call.py:144-149, 201-225`). -/
def canCall (c : Cfg) (s : Sys) (i : Nat) : Bool := decide (i < s.next) && (s.called i).isNone && slotFree c s

/-- One action; an action that is not possible changes nothing. `_async_call.py:144-149, 201-225`. -/
def step (c : Cfg) (s : Sys) : Act → Sys
  | .pass d => { s with clock := s.clock + d }
  | .start => if canStart c s then { s with next := s.next + 1, started := upd s.started s.next (some s.clock) } else s
  | .call i => if canCall c s i then { s with called := upd s.called i (some s.clock) } else s
  | .finish i => if (s.called i).isSome then { s with ended := upd s.ended i true } else s

/-- A schedule. Built on `step` (`_async_call.py:144-149, 201-225`). -/
def run (c : Cfg) (acts : List Act) : Sys := acts.foldl (step c) {}

/-! ### The attempts on one item -/

/-- What happens while an item is processed: a call of the function lasting `d`, or a sleep of `d`. Serves `attempts` (`_async_call.py:174-199`). -/
inductive Ev where
  | call (d : Rat)
  | sleep (d : Rat)
  deriving DecidableEq, Repr

/-- `execute_task`, `_async_call.py:174-199`: `script k` is how long the attempt number `k` (from 0) lasts and whether it succeeds; `left`: remaining retries;
`delay`: `current_delay`. (Attempts that end in a cancellation are not considered.) -/
def attempts (backoff : Rat) (script : Nat → Rat × Bool) : Nat → Nat → Rat → List Ev
  | 0, k, _ => [.call (script k).1]
  | left + 1, k, delay =>
    if (script k).2 then [.call (script k).1]
    else if delay ≠ 0 then .call (script k).1 :: .sleep delay :: attempts backoff script left (k + 1) (delay * backoff)
    else .call (script k).1 :: attempts backoff script left (k + 1) delay

/-- How long an event lasts. Built on `Ev` (`_async_call.py:174-199`). -/
def Ev.time : Ev → Rat
  | .call d => d
  | .sleep d => d

end Verif.AlcallTime
