import Verif.Py.Basic

/-! # One event in several executors

An `Event` can be appended to any number of executors (`src/lionherd_core/base/processor.py:443-453`).  Each executor lists it under a status of its own and its processor takes it from its own queue
(`processor.py:226-279`), while the event itself runs under its own lock (`event.py:246-312`).  This model follows one event: its status and lock, the listing in every executor, and every
attempt of a processor to run it.  One task runs at a time and control changes only at awaits, so every step below is atomic.  Simplified: the queues are left out, a processor may take the event at any
time once it is listed; streaming events, clean-ups and a body that raises a BaseException other than the cancellation are not modelled. -/

namespace Verif.EventShare

/-- A status, `event.py:38-44`; `skipped`, which no code sets, is left out. -/
inductive Status where
  | pending | processing | completed | failed | cancelled | aborted
  deriving DecidableEq, Repr

/-- Where an attempt is: not begun; permission given (`processor.py:246-252`); filed under processing, its task not started (`processor.py:252, 279`); waiting for the lock of the event
(`event.py:247`); in `_invoke` (`event.py:271-273`); after `invoke` (`processor.py:274-277`); over. -/
inductive PC where
  | idle | permitted | filed | waiting | body | after | over
  deriving DecidableEq, Repr

/-- The event, its lock, and what the executors have of it (`event.py:246-312`, `processor.py:385-415`). -/
structure State where
  status : Status := .pending
  holder : Option Nat := none
  waiters : List Nat := []
  runs : Nat := 0
  pc : Nat → PC := fun _ => .idle
  ex : Nat → Nat := fun _ => 0
  next : Nat := 0
  listed : Nat → Option Status := fun _ => none

/-- What happens. Serves `step` (`processor.py:226-303, 443-453`). -/
inductive Act where
  | append (j : Nat)
  | take (j : Nat)
  | file (k : Nat)
  | enter (k : Nat)
  | resume (k : Nat)
  | finish (k : Nat) (o : Status)
  | update (k : Nat)
  | abort (j : Nat)
  | cancel (k : Nat) (updates : Bool)
  deriving DecidableEq, Repr

/-- Assignment to one place. Serves `step` (`processor.py:385-415`). -/
def upd {α : Type} (g : Nat → α) (k : Nat) (v : α) : Nat → α := fun i => if i = k then v else g i

/-- An attempt goes on to the given place. Serves `step` (`processor.py:226-279`). -/
def State.goto (s : State) (k : Nat) (p : PC) : State := { s with pc := upd s.pc k p }
/-- `_update_progression`, `processor.py:385-415`: the event is taken out of all lists and put under one status. -/
def State.list (s : State) (j : Nat) (st : Status) : State := { s with listed := upd s.listed j (some st) }
/-- The lock passes to the one that waits longest, `_utils.py:71-73`. -/
def State.unlock (s : State) : State := { s with holder := s.waiters.head?, waiters := s.waiters.tail }

/-- `append`, `processor.py:443-453`: an event that the executor has raises ExistsError. -/
def append (s : State) (j : Nat) : State := if s.listed j = none then s.list j .pending else s
/-- A processor takes the event and gets permission, `processor.py:233-246`. -/
def take (s : State) (j : Nat) : State :=
  if s.listed j = none then s else { s with pc := upd s.pc s.next .permitted, ex := upd s.ex s.next j, next := s.next + 1 }
/-- The executor lists it under processing and the task is made, `processor.py:250-252, 279`. -/
def file (s : State) (k : Nat) : State := if s.pc k = .permitted then (s.list (s.ex k) .processing).goto k .filed else s
/-- The beginning of `invoke` with the lock held, `event.py:260-268`: nothing for an event that is not pending. -/
def begin_ (s : State) (k : Nat) : State :=
  if s.status = .pending then { s with status := .processing, runs := s.runs + 1, holder := some k }.goto k .body else s.unlock.goto k .after
/-- The task starts and calls `invoke`, `processor.py:273` and `event.py:247`: it waits if the lock is held. -/
def enter (s : State) (k : Nat) : State :=
  if s.pc k = .filed then
    if s.holder = none then begin_ s k else { s with waiters := s.waiters ++ [k] }.goto k .waiting
  else s
/-- A task that was given the lock goes on, `event.py:247`. -/
def resume (s : State) (k : Nat) : State := if s.pc k = .waiting ∧ s.holder = some k then begin_ s k else s
/-- `_invoke` returns, raises or times out, `event.py:276-312`: `invoke` ends with the given status and gives up the lock. -/
def finish (s : State) (k : Nat) (o : Status) : State :=
  if s.pc k = .body ∧ (o = .completed ∨ o = .failed ∨ o = .cancelled) then { s with status := o }.unlock.goto k .after else s
/-- `_update_progression(event)` after `invoke`, `processor.py:275-277`. -/
def update (s : State) (k : Nat) : State := if s.pc k = .after then (s.list (s.ex k) s.status).goto k .over else s
/-- The third denial, `processor.py:294-298`: the executor lists the event under aborted; the event itself is not told. -/
def abort (s : State) (j : Nat) : State := if s.listed j = none then s else s.list j .aborted
/-- Where a cancelled task goes on: whether the update in `finally` is reached and not cancelled too, `processor.py:274-277`. Serves `cancel`. -/
def afterCancel (updates : Bool) : PC := if updates then .after else .over
/-- Cancellation of a `process()` call reaches an attempt, `processor.py:231-279`: before the task started nothing else happens; a task that waits for the lock leaves the queue, or passes the lock on
if it was just given it; in `_invoke` the event becomes cancelled (`event.py:314-322`). -/
def cancel (s : State) (k : Nat) (updates : Bool) : State :=
  match s.pc k with
  | .permitted => s.goto k .over
  | .filed => s.goto k .over
  | .waiting => if s.holder = some k then s.unlock.goto k (afterCancel updates) else { s with waiters := s.waiters.erase k }.goto k (afterCancel updates)
  | .body => { s with status := .cancelled }.unlock.goto k (afterCancel updates)
  | .after => s.goto k .over
  | _ => s

/-- One step. Models `processor.py:226-303, 443-453` and `event.py:246-326`. -/
def step (s : State) : Act → State
  | .append j => append s j
  | .take j => take s j
  | .file k => file s k
  | .enter k => enter s k
  | .resume k => resume s k
  | .finish k o => finish s k o
  | .update k => update s k
  | .abort j => abort s j
  | .cancel k u => cancel s k u

/-- A history from a new event. Built on `step` (`processor.py:226-303`). -/
def run (s : State) (h : List Act) : State := h.foldl step s

end Verif.EventShare
