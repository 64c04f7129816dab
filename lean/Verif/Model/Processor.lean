import Verif.Py.Basic
import Verif.Py.Dict
import Verif.Py.Heapq

/-!
# Model of `Processor` (`src/lionherd_core/base/processor.py:26-331`)

The processor is a transition system.  Any number of `enqueue()`, `process()`, `stop()` calls (and clean-ups by the executor) run
concurrently; a step of a call runs from one `await` to the next.

Simplifications.  Event ids are natural numbers (UUIDs are compared as integers).  A finite float priority is an integer: only
the order and the addition of the back-off are used; rounding of that addition is not modelled.  `request_permission` is an oracle: each answer (grant,
deny, raise) is an input of the step.  Whether an id is in the event pile is an input of the step too (`Executor.lean` supplies
it from the flow).  The executed events themselves are not part of this model; a started event is an observation.  Waiting for the
queue's lock is an `await`, so `enqueue` and the re-queueing are two steps; the lock's own order is left to the scheduler.  A `process()` call
that is cancelled (from outside, or because one of its task group's children raised) ends at the `await` it is at (`cancel`).
-/

namespace Verif.Processor

/-- Constructor parameters, `processor.py:88-94`. -/
structure Cfg where
  queueCapacity : Int
  maxQueue : Nat
  maxDenial : Nat
  deriving DecidableEq, Repr

/-- The checks of the constructor on these parameters, `processor.py:65-86`. -/
def Cfg.Valid (c : Cfg) : Prop := 1 ≤ c.queueCapacity ∧ c.queueCapacity ≤ 10000 ∧ 1 ≤ c.maxQueue ∧ 1 ≤ c.maxDenial

/-- Queue entry `(priority, event_id)`, `processor.py:99`. -/
abbrev Entry := Int × Nat

/-- Tuple comparison `<`. Serves `enqPut` (`processor.py:158`). -/
def entryLt (a b : Entry) : Bool := decide (a.1 < b.1) || (decide (a.1 = b.1) && decide (a.2 < b.2))

/-- A float passed as `priority`. Serves `enqueue` (`processor.py:140-156`). -/
inductive Prio where
  | finite (p : Int)
  | nonFinite            -- NaN, inf, -inf
  deriving DecidableEq, Repr

/-- Answer of `request_permission`. Serves `advance` (`processor.py:226-309`). -/
inductive Perm where
  | grant
  | deny
  | raise
  deriving DecidableEq, Repr

/-- Where a `process()` call is (the `await` it is at). Serves the model of `processor.py:96-107`. -/
inductive PC where
  | check                       -- line 233, about to test the loop condition
  | getting                     -- line 235, `await self.queue.get()`
  | asking (e : Entry)          -- line 246, `await self.request_permission(...)`
  | granted (e : Entry)         -- line 252, `await self.executor._update_progression(.., PROCESSING)`
  | aborting (e : Entry)        -- line 297, `await self.executor._update_progression(.., ABORTED)`
  | requeueing (e : Entry) (n : Nat)  -- line 303, `await self.queue.put((priority + backoff, id))` for the n-th denial
  | draining                    -- loop left, the task group waits for the started events
  | done                        -- returned
  | failed                      -- raised
  deriving DecidableEq, Repr

/-- A `process()` call. Serves `Sys` (`processor.py:96-107`). -/
structure Call where
  processed : Nat := 0
  pc : PC := .check
  deriving DecidableEq, Repr

/-- Observations, oldest first; `i` is the index of the `process()` call. Serves `Sys` (`processor.py:96-107`). -/
inductive Obs where
  | enq (e : Entry)             -- entry added by `enqueue`
  | full (id : Nat)             -- `enqueue` raised QueueFullError
  | badPriority (id : Nat)      -- `enqueue` raised ValueError
  | missing (id : Nat)          -- `enqueue` raised NotFoundError
  | take (i : Nat) (e : Entry)  -- entry taken from the queue
  | skip (i : Nat) (id : Nat)   -- not in the pile
  | grant (i : Nat) (id : Nat)
  | deny (i : Nat) (id : Nat)
  | abort (i : Nat) (id : Nat)    -- decided to abort
  | aborted (i : Nat) (id : Nat)  -- moved to ABORTED, denial count dropped
  | requeue (i : Nat) (e : Entry) -- entry put back
  | start (i : Nat) (e : Entry)   -- event execution started
  | reset (i : Nat)             -- capacity reset
  | stop
  | forget (id : Nat)           -- executor clean-up dropped the denial count
  deriving DecidableEq, Repr

/-- State, `processor.py:96-107`; `pending` are the `enqueue` calls that have passed the checks and await the queue. -/
structure Sys where
  queue : List Entry := []
  cap : Int
  denials : Dict Nat Nat := []
  calls : List Call := []
  pending : List Entry := []
  log : List Obs := []
  deriving DecidableEq

/-- A new processor. Built on `Cfg` (`processor.py:88-94`). -/
def init (c : Cfg) : Sys := { cap := c.queueCapacity }

/-- Serves `enqueue` (`processor.py:140-156`). -/
def Sys.obs (s : Sys) (o : Obs) : Sys := { s with log := s.log ++ [o] }

/-- The checked part of `enqueue`, `processor.py:140-156`.  `created` is the event's `created_at` timestamp if the event is in the pile. -/
def enqueue (c : Cfg) (s : Sys) (id : Nat) (prio : Option Prio) (created : Option Int) : Sys :=
  if c.maxQueue ≤ s.queue.length then s.obs (.full id)
  else
    match prio with
    | some (.finite p) => { s with pending := s.pending ++ [(p, id)] }
    | some .nonFinite => s.obs (.badPriority id)
    | none =>
      match created with
      | some p => { s with pending := s.pending ++ [(p, id)] }
      | none => s.obs (.missing id)

/-- `await self.queue.put((priority, event_id))`, `processor.py:158`, of the `k`-th such call. -/
def enqPut (s : Sys) (k : Nat) : Sys :=
  match s.pending[k]? with
  | none => s
  | some e =>
    { s with queue := Heapq.push entryLt s.queue e, pending := s.pending.eraseIdx k, log := s.log ++ [.enq e] }

/-- `if len(self._denial_counts) >= self.max_denial_tracking: ... pop(oldest_key)`, `processor.py:287-289`. -/
def evict (c : Cfg) (d : Dict Nat Nat) : Dict Nat Nat := if c.maxDenial ≤ d.length then d.tail else d

/-- `self._denial_counts.get(event_id, 0) + 1`, `processor.py:291`. -/
def nextCount (c : Cfg) (d : Dict Nat Nat) (id : Nat) : Nat := ((evict c d).get? id).getD 0 + 1

/-- Update call `i`. Serves `deny` (`processor.py:287-303`). -/
def setCall (s : Sys) (i : Nat) (cl : Call) : Sys := { s with calls := s.calls.set i cl }

/-- A denial, `processor.py:287-303` up to the next `await`. -/
def deny (c : Cfg) (s : Sys) (i : Nat) (cl : Call) (e : Entry) : Sys :=
  let n := nextCount c s.denials e.2
  let s := { s with denials := (evict c s.denials).set e.2 n }
  if 3 ≤ n then (setCall s i { cl with pc := .aborting e }).obs (.deny i e.2) |>.obs (.abort i e.2)
  else (setCall s i { cl with pc := .requeueing e n }).obs (.deny i e.2)

/-- One step of the `process()` call `i`, `processor.py:226-309`.  `found`: the dequeued id is in the pile; `perm`: the answer of
`request_permission` (both used only where asked). -/
def advance (c : Cfg) (s : Sys) (i : Nat) (cl : Call) (found : Bool) (perm : Perm) : Sys :=
  match cl.pc with
  | .check =>
    if 0 < s.cap ∧ s.queue ≠ [] then setCall s i { cl with pc := .getting }
    else setCall s i { cl with pc := .draining }
  | .getting =>
    match Heapq.pop entryLt s.queue with
    | none => s
    | some (e, q) =>
      if found then (setCall { s with queue := q } i { cl with pc := .asking e }).obs (.take i e)
      else (setCall { s with queue := q, denials := s.denials.del e.2 } i { cl with pc := .check }).obs (.take i e)
        |>.obs (.skip i e.2)
  | .asking e =>
    match perm with
    | .grant => (setCall { s with denials := s.denials.del e.2 } i { cl with pc := .granted e }).obs (.grant i e.2)
    | .deny => deny c s i cl e
    | .raise => setCall s i { cl with pc := .failed }
  | .granted e =>
    (setCall { s with cap := s.cap - 1 } i { processed := cl.processed + 1, pc := .check }).obs (.start i e)
  | .aborting e =>
    (setCall { s with denials := s.denials.del e.2 } i { cl with pc := .draining }).obs (.aborted i e.2)
  | .requeueing e n =>
    (setCall { s with queue := Heapq.push entryLt s.queue (e.1 + n, e.2) } i { cl with pc := .draining }).obs
      (.requeue i (e.1 + n, e.2))
  | .draining =>
    if 0 < cl.processed then (setCall { s with cap := c.queueCapacity } i { cl with pc := .done }).obs (.reset i)
    else setCall s i { cl with pc := .done }
  | .done => s
  | .failed => s

/-- Scheduler actions. Serves `seqStep` (`processor.py:322-331`). -/
inductive Act where
  | enqueue (id : Nat) (prio : Option Prio) (created : Option Int)
  | enqPut (k : Nat)
  | process                                   -- a new `process()` call
  | go (i : Nat) (found : Bool) (perm : Perm)   -- call `i` runs to its next `await`
  | cancel (i : Nat)                          -- call `i` is cancelled or its task group fails
  | stop                                      -- `stop()`, `processor.py:174-180`
  | forget (id : Nat)                         -- `cleanup_events`, `processor.py:522-523`
  deriving DecidableEq, Repr

/-- The call has ended. Serves `seqStep` (`processor.py:322-331`). -/
def Call.ended (cl : Call) : Bool :=
  match cl.pc with
  | .done => true
  | .failed => true
  | _ => false

/-- One step. Serves `seqStep` (`processor.py:322-331`). -/
def step (c : Cfg) (s : Sys) : Act → Sys
  | .enqueue id prio created => enqueue c s id prio created
  | .enqPut k => enqPut s k
  | .process => { s with calls := s.calls ++ [{}] }
  | .go i found perm =>
    match s.calls[i]? with
    | none => s
    | some cl => advance c s i cl found perm
  | .cancel i =>
    match s.calls[i]? with
    | none => s
    | some cl => if cl.ended then s else setCall s i { cl with pc := .failed }
  | .stop => ({ s with denials := [] }).obs .stop
  | .forget id => ({ s with denials := s.denials.del id }).obs (.forget id)

/-- A schedule. Built on `Cfg` (`processor.py:88-94`). -/
def run (c : Cfg) (s : Sys) (as : List Act) : Sys := as.foldl (step c) s

/-- Like `step`, but a new `process()` call is made only when every earlier one has ended, as in the `execute()` loop
(`processor.py:322-331`) when nobody else calls `process()`/`forward()`. -/
def seqStep (c : Cfg) (s : Sys) : Act → Sys
  | .process => if s.calls.all Call.ended then step c s .process else s
  | a => step c s a

/-- A schedule without overlapping `process()` calls. Built on `Cfg` (`processor.py:88-94`). -/
def seqRun (c : Cfg) (s : Sys) (as : List Act) : Sys := as.foldl (seqStep c) s

/-- The entry a call holds. Built on `Entry` (`processor.py:99`). -/
def Call.held (cl : Call) : Option Entry :=
  match cl.pc with
  | .asking e => some e
  | .granted e => some e
  | .aborting e => some e
  | .requeueing e _ => some e
  | _ => none

end Verif.Processor
