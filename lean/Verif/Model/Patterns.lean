import Verif.Model.Fanout

/-!
# `race`, `CompletionStream`, `retry` of `src/lionherd_core/libs/concurrency/_patterns.py`
-/

namespace Verif.Patterns

open Verif.Fanout (Outcome St upd)

/-! ### `race` (`_patterns.py:62-84`) -/

/-- Runners hand `(ok, payload)` to a rendezvous stream; senders wait in order of arrival.  `queue`: waiting senders; `result`: what the receiver took.
Part of the model of `_patterns.py:62-84`. -/
structure Race where
  ended : Nat → Bool := fun _ => false
  queue : List Outcome := []
  result : Option Outcome := none

/-- `finish i`: awaitable `i` ends (before the group is cancelled) and its runner offers the outcome; `recv`: the body of the `async with` receives and cancels the group.
Part of the model of `_patterns.py:62-84`. -/
inductive RaceAct where
  | finish (i : Nat)
  | recv
  deriving DecidableEq, Repr

/-- One action.  After the receive the group is cancelled, so later sends fail and have no effect. Part of the model of `_patterns.py:62-84`. -/
def Race.step (n : Nat) (res : Nat → Outcome) (s : Race) : RaceAct → Race
  | .finish i =>
    if i < n ∧ s.ended i = false ∧ s.result = none then { s with ended := upd s.ended i true, queue := s.queue ++ [res i] } else s
  | .recv =>
    if s.result = none then
      match s.queue with
      | [] => s
      | o :: q => { s with queue := q, result := some o }
    else s

/-- `race(*aws)` under a schedule; `ValueError` for no awaitables is not an outcome here (`n > 0`). Part of the model of `_patterns.py:62-84`. -/
def race (n : Nat) (res : Nat → Outcome) (acts : List RaceAct) : Option Outcome := (acts.foldl (Race.step n res) {}).result

/-! ### `CompletionStream` (`_patterns.py:130-196`) -/

/-- Parameters: number of awaitables, `limit` (`None` and `0` mean no limiter), their values.  All awaitables succeed (a failing one cancels the host task).
Part of the model of `_patterns.py:130-196`. -/
structure SCfg where
  n : Nat
  limit : Option Nat
  val : Nat → Nat

/-- `buf`: memory stream (capacity `n`, so sends never wait); `got`: what `__anext__` returned so far; `left`: the `async with` body was left; `log`: completion order (ghost).
Part of the model of `_patterns.py:130-196`. -/
structure Stream where
  st : Nat → St := fun _ => .waiting
  buf : List (Nat × Nat) := []
  got : List (Nat × Nat) := []
  left : Bool := false
  log : List (Nat × Nat) := []

/-- Part of the model of `_patterns.py:130-196`. -/
inductive SAct where
  | start (i : Nat)
  | finish (i : Nat)
  | next
  | leave
  deriving DecidableEq, Repr

/-- Part of the model of `_patterns.py:130-196`. -/
def Stream.running (cfg : SCfg) (s : Stream) : List Nat := (List.range cfg.n).filter (fun i => s.st i == .running)

/-- `limiter = CapacityLimiter(self.limit) if self.limit else None`. Part of the model of `_patterns.py:130-196`. -/
def Stream.slotFree (cfg : SCfg) (s : Stream) : Bool :=
  match cfg.limit with
  | none => true
  | some 0 => true
  | some (k + 1) => decide ((s.running cfg).length < k + 1)

/-- One action.  `finish`: `res = await aw; await send((i, res))` (the buffer has room, so the send does not yield).  `next`: `__anext__`, which stops once `n` results were returned.
`leave`: leaving the block calls the task group's `__aexit__` without an exception, which waits for the tasks and cancels nothing.
Part of the model of `_patterns.py:130-196`. -/
def Stream.step (cfg : SCfg) (s : Stream) : SAct → Stream
  | .start i => if i < cfg.n ∧ s.st i = .waiting ∧ s.slotFree cfg = true then { s with st := upd s.st i .running } else s
  | .finish i =>
    if i < cfg.n ∧ s.st i = .running then
      { s with st := upd s.st i .ended, buf := s.buf ++ [(i, cfg.val i)], log := s.log ++ [(i, cfg.val i)] }
    else s
  | .next =>
    if s.left = false ∧ s.got.length < cfg.n then
      match s.buf with
      | [] => s
      | x :: b => { s with buf := b, got := s.got ++ [x] }
    else s
  | .leave => { s with left := true }

/-- Part of the model of `_patterns.py:130-196`. -/
def Stream.run (cfg : SCfg) (acts : List SAct) : Stream := acts.foldl (Stream.step cfg) {}

/-- `__aexit__` has returned: the block was left and all tasks have ended. Part of the model of `_patterns.py:130-196`. -/
def Stream.exited (cfg : SCfg) (s : Stream) : Bool := s.left && (List.range cfg.n).all (fun i => s.st i == .ended)

/-! ### `retry` (`_patterns.py:199-238`) -/

/-- How one call of `fn` ends: value, an exception that is an instance of `retry_on`, another exception.
Part of the model of `_patterns.py:199-238`. -/
inductive Call where
  | ok (v : Nat)
  | retryable (e : Nat)
  | other (e : Nat)
  deriving DecidableEq, Repr

/-- Parameters.  `draw k`, `pre k`, `post k`: random number, clock before and clock after the sleep that follows the `k`-th failure (from 1). Numbers are rationals where Python uses floats.
Part of the model of `_patterns.py:199-238`. -/
structure RCfg where
  attempts : Int
  baseDelay : Rat
  maxDelay : Rat
  jitter : Rat
  deadline : Option Rat
  script : Nat → Call
  draw : Nat → Rat
  pre : Nat → Rat
  post : Nat → Rat

/-- What is observed: the `k`-th call (from 0), and a sleep asked for with its latest end. Part of the model of `_patterns.py:199-238`. -/
inductive Ev where
  | call (k : Nat)
  | sleep (seconds : Rat) (wakeBy : Option Rat)
  deriving DecidableEq, Repr

/-- Part of the model of `_patterns.py:199-238`. -/
inductive End where
  | returned (v : Nat)
  | raised (e : Nat)
  | fuel
  deriving DecidableEq, Repr

/-- `delay`, `_patterns.py:219-223`; `k` is `attempt`. -/
def delay (c : RCfg) (k : Nat) : Rat :=
  if c.jitter ≠ 0 then min c.maxDelay (c.baseDelay * 2 ^ (k - 1)) * (1 + c.draw k * c.jitter)
  else min c.maxDelay (c.baseDelay * 2 ^ (k - 1))

/-- Deadline check before sleeping: `remaining <= 0`. Part of the model of `_patterns.py:199-238`. -/
def outOfTime (c : RCfg) (k : Nat) : Bool :=
  match c.deadline with
  | none => false
  | some d => decide (d - c.pre k ≤ 0)

/-- Deadline check after sleeping: `current_time() >= deadline`. Part of the model of `_patterns.py:199-238`. -/
def overslept (c : RCfg) (k : Nat) : Bool :=
  match c.deadline with
  | none => false
  | some d => decide (d ≤ c.post k)

/-- The loop with `attempt` failures so far.  `fuel` bounds the recursion; it never runs out (`C41_terminates`).
Part of the model of `_patterns.py:199-238`. -/
def loop (c : RCfg) : Nat → Nat → List Ev × End
  | fuel, attempt =>
    match c.script attempt with
    | .ok v => ([.call attempt], .returned v)
    | .other e => ([.call attempt], .raised e)
    | .retryable e =>
      if c.attempts ≤ ((attempt + 1 : Nat) : Int) then ([.call attempt], .raised e)
      else if outOfTime c (attempt + 1) then ([.call attempt], .raised e)
      else if overslept c (attempt + 1) then ([.call attempt, .sleep (delay c (attempt + 1)) c.deadline], .raised e)
      else
        match fuel with
        | 0 => ([.call attempt], .fuel)
        | fuel + 1 =>
          ([.call attempt, .sleep (delay c (attempt + 1)) c.deadline] ++ (loop c fuel (attempt + 1)).1, (loop c fuel (attempt + 1)).2)

/-- `retry(fn, ...)`. Part of the model of `_patterns.py:199-238`. -/
def retry (c : RCfg) : List Ev × End := loop c c.attempts.toNat 0

end Verif.Patterns
