import Verif.Py.Basic
import Verif.Py.Dict

/-!
# Model of `src/lionherd_core/base/event.py`

* Exception objects live in a heap `ε → ExcObj ε`; `ε` is object identity (Python's `id`).  A group lists its members by
  identity, so nested, shared and even cyclic groups are covered.
* `invoke` is modelled as a transition system: any number of tasks, each at one of the program points between two `await`s
  (asyncio/trio tasks interleave only there).  The event body `_invoke` is arbitrary code; all that matters here is how it ends.
* Times are integers (`current_time()` is a parameter of the steps that read it).
-/

namespace Verif.Event

/-- `EventStatus`, `event.py:26-45`. -/
inductive Status where
  | pending | processing | completed | failed | cancelled | skipped | aborted
  deriving DecidableEq, Repr

/-- All members of `EventStatus`, `event.py:39-45`. -/
def Status.all : List Status := [.pending, .processing, .completed, .failed, .cancelled, .skipped, .aborted]

/-- An exception object: what `isinstance` checks and attributes of it the code reads (`event.py:103-179, 246-328`).
`lion` is `retryable` when it is a `LionherdError`; `group` lists the members when it is an `ExceptionGroup`. -/
structure ExcObj (ε : Type) where
  cls : String
  text : String
  isException : Bool := true
  isTimeout : Bool := false
  isCancel : Bool := false
  lion : Option Bool := none
  group : Option (List ε) := none
  deriving DecidableEq, Repr

/-- `execution.error`: unset, `None`, an exception raised by the body, or the `LionherdTimeoutError` built by `invoke`
(`event.py:284-287`). -/
inductive Err (ε : Type) where
  | unset | none_ | raised (e : ε) | timeout
  deriving DecidableEq, Repr

/-- `Execution`, `event.py:48-65`; `none` is `Unset`. -/
structure Execution (ε α : Type) where
  status : Status := .pending
  duration : Option Int := none
  response : Option α := none
  error : Err ε := .unset
  retryable : Option Bool := none
  deriving DecidableEq, Repr

/-- How `with fail_after(timeout): await self._invoke()` (or the plain `await`) ends: a value, an exception raised by the
body or delivered to it (cancellation), or the deadline of `fail_after` (`event.py:268-275`,
`libs/concurrency/_cancel.py:27-36`), which raises the builtin `TimeoutError`. -/
inductive Outcome (ε α : Type) where
  | ret (v : α)
  | raise (e : ε)
  | deadline
  deriving DecidableEq, Repr

/-- How a call of `invoke` ends. Serves `handle` (`event.py:277-326`). -/
inductive Exit (ε : Type) where
  | returned
  | raised (e : ε)
  deriving DecidableEq, Repr

section

variable {ε α τ : Type}

/-- `isinstance(exc, LionherdError) and not exc.retryable`, `event.py:301`. -/
def nonRetryableLion (o : ExcObj ε) : Bool := o.lion == some false

/-- `retryable` of a failed execution, `event.py:297-311`: for a group only its direct members are inspected. -/
def failedRetryable (heap : ε → ExcObj ε) (e : ε) : Bool :=
  match (heap e).group with
  | some ms => !(ms.any (fun m => nonRetryableLion (heap m)))
  | none => (heap e).lion.getD true

/-- Success, `event.py:277-281`. -/
def onReturn (x : Execution ε α) (v : α) : Execution ε α :=
  { x with response := some v, error := .none_, status := .completed, retryable := some false }

/-- `except TimeoutError`, `event.py:283-292`. -/
def onTimeout (x : Execution ε α) : Execution ε α :=
  { x with response := none, error := .timeout, status := .cancelled, retryable := some true }

/-- `except Exception`, `event.py:294-315`. -/
def onException (heap : ε → ExcObj ε) (x : Execution ε α) (e : ε) : Execution ε α :=
  { x with retryable := some (failedRetryable heap e), response := none, error := .raised e, status := .failed }

/-- The cancellation branch of `except BaseException`, `event.py:317-324`. -/
def onCancel (x : Execution ε α) (e : ε) : Execution ε α :=
  { x with response := none, error := .raised e, status := .cancelled, retryable := some true }

/-- The `try ... except ... ` of `invoke` once the body has ended, `event.py:277-326`, without `finally`. -/
def handle (heap : ε → ExcObj ε) (x : Execution ε α) : Outcome ε α → Execution ε α × Exit ε
  | .ret v => (onReturn x v, .returned)
  | .deadline => (onTimeout x, .returned)
  | .raise e =>
    if (heap e).isTimeout then (onTimeout x, .returned)
    else if (heap e).isException then (onException heap x e, .returned)
    else if (heap e).isCancel then (onCancel x e, .raised e)
    else (x, .raised e)

/-- `handle` followed by `finally: self.execution.duration = current_time() - start`, `event.py:328`. -/
def settle (heap : ε → ExcObj ε) (x : Execution ε α) (elapsed : Int) (o : Outcome ε α) : Execution ε α × Exit ε :=
  ({ (handle heap x o).1 with duration := some elapsed }, (handle heap x o).2)

/-! ### Concurrent calls of `invoke` -/

/-- Program point of one `invoke` call: waiting in `async with self._async_lock` (`_utils.py:71`), holding the lock before the
first statement, or awaiting the body (started at the given time). -/
inductive Pc where
  | waiting
  | holding
  | body (start : Int)
  deriving DecidableEq, Repr

/-- What can be observed of the calls. Serves the model of `event.py:246-328`. -/
inductive Obs (τ ε α : Type) where
  | start (t : τ)                       -- the body is started by call `t`
  | finish (t : τ) (o : Outcome ε α)    -- the body ended
  | exit (t : τ) (x : Exit ε)           -- call `t` of `invoke` ended
  deriving DecidableEq, Repr

/-- State: the execution record, the lock owner, the calls in progress, and the observation log (oldest first). Serves `step` (`event.py:246-328`). -/
structure Sys (τ ε α : Type) where
  exec : Execution ε α := {}
  lock : Option τ := none
  calls : Dict τ Pc := []
  log : List (Obs τ ε α) := []

/-- One step of the scheduler. Serves `step` (`event.py:246-328`). -/
inductive Act (τ ε α : Type) where
  | call (t : τ)                                  -- a new call of `invoke` starts waiting for the lock
  | acquire (t : τ)                               -- the lock is granted
  | cancelWait (t : τ) (e : ε)                    -- cancelled while waiting / before running: `e` propagates
  | enter (t : τ) (now : Int)                     -- runs from the first statement to the first await
  | finish (t : τ) (now : Int) (o : Outcome ε α)  -- the body ends, the rest of `invoke` runs

/-- The steps of `invoke`, `event.py:246-328` inside `async_synchronized` (`_utils.py:66-74`).  A step that is not enabled does
nothing. -/
def step [DecidableEq τ] (heap : ε → ExcObj ε) (s : Sys τ ε α) : Act τ ε α → Sys τ ε α
  | .call t =>
    match s.calls.get? t with
    | some _ => s
    | none => { s with calls := s.calls.set t .waiting }
  | .acquire t =>
    match s.calls.get? t, s.lock with
    | some .waiting, none => { s with lock := some t, calls := s.calls.set t .holding }
    | _, _ => s
  | .cancelWait t e =>
    match s.calls.get? t with
    | some .waiting => { s with calls := s.calls.del t, log := s.log ++ [.exit t (.raised e)] }
    | some .holding => { s with lock := none, calls := s.calls.del t, log := s.log ++ [.exit t (.raised e)] }
    | _ => s
  | .enter t now =>
    match s.calls.get? t with
    | some .holding =>
      if s.exec.status ≠ .pending then
        { s with lock := none, calls := s.calls.del t, log := s.log ++ [.exit t .returned] }
      else
        { s with exec := { s.exec with status := .processing }, calls := s.calls.set t (.body now),
                 log := s.log ++ [.start t] }
    | _ => s
  | .finish t now o =>
    match s.calls.get? t with
    | some (.body start) =>
      { exec := (settle heap s.exec (now - start) o).1, lock := none, calls := s.calls.del t,
        log := s.log ++ [.finish t o, .exit t (settle heap s.exec (now - start) o).2] }
    | _ => s

/-- Run a schedule. Built on `ExcObj` (`event.py:103-179, 246-328`). -/
def run [DecidableEq τ] (heap : ε → ExcObj ε) (s : Sys τ ε α) (as : List (Act τ ε α)) : Sys τ ε α :=
  as.foldl (step heap) s

/-! ### Errors -/

/-- The members of the group `add_error` builds, `event.py:170-179`. -/
def mergedMembers (heap : ε → ExcObj ε) (old e : ε) : List ε :=
  match (heap old).group with
  | some ms => ms ++ [e]
  | none => [old, e]

/-- `str(ExceptionGroup("multiple errors", ms))`: CPython appends the number of members. Serves the model of `event.py:165-179`. -/
def groupText (n : Nat) : String := "multiple errors (" ++ toString n ++ (if n = 1 then " sub-exception)" else " sub-exceptions)")

/-- Allocate an `ExceptionGroup("multiple errors", ms)` as object `fresh`. Serves `addError` (`event.py:165-179`). -/
def allocGroup [DecidableEq ε] (heap : ε → ExcObj ε) (fresh : ε) (ms : List ε) (i : ε) : ExcObj ε :=
  if i = fresh then { cls := "ExceptionGroup", text := groupText ms.length, group := some ms } else heap i

/-- `add_error`, `event.py:165-179`; `err` is `self.error` (`none` for `Unset` and `None`), `fresh` the identity of the group
object that may be created.  CPython's `ExceptionGroup` constructor raises `TypeError` when a member is not an `Exception`. -/
def addError [DecidableEq ε] (s : (ε → ExcObj ε) × Option ε) (fresh e : ε) : Res ((ε → ExcObj ε) × Option ε) Unit :=
  match s.2 with
  | none => ((s.1, some e), .ok ())
  | some old =>
    if (mergedMembers s.1 old e).all (fun m => (s.1 m).isException) then
      ((allocGroup s.1 fresh (mergedMembers s.1 old e), some fresh), .ok ())
    else (s, .error .typeError)

/-- The JSON-like value an exception is serialised to. Serves `serMember` (`event.py:82-91`). -/
inductive Ser where
  | plain (cls text : String)
  | lion (cls text : String) (retryable : Bool)
  | group (cls text : String) (ms : List Ser)
  | tooDeep (count : Nat)
  | circular
  deriving Repr

/-- `MAX_DEPTH`, `event.py:118`. -/
def maxDepth : Nat := 100

/-- One exception, `event.py:82-91` and `140-152`: a `LionherdError` by its `to_dict` (its `details` are not modelled), a group
by the given function, anything else by class name and text. -/
def serMember (heap : ε → ExcObj ε) (grp : ε → List ε → Ser) (m : ε) : Ser :=
  match (heap m).lion, (heap m).group with
  | some r, _ => .lion (heap m).cls (heap m).text r
  | none, some ms => grp m ms
  | none, none => .plain (heap m).cls (heap m).text

/-- `_serialize_exception_group`, `event.py:103-163`: the first argument is `MAX_DEPTH - depth + 1` (zero when
`depth > MAX_DEPTH`), `seen` the identities on the current path (`finally` removes them again). -/
def serGroup [DecidableEq ε] (heap : ε → ExcObj ε) : Nat → List ε → ε → List ε → Ser
  | 0, _, _, ms => .tooDeep ms.length
  | k + 1, seen, e, ms =>
    if e ∈ seen then .circular
    else .group (heap e).cls (heap e).text (ms.map (serMember heap (serGroup heap k (e :: seen))))

/-- The `error` entry of `Execution.to_dict`, `event.py:78-91`; `none` is `None`. -/
def serError [DecidableEq ε] (heap : ε → ExcObj ε) : Err ε → Option Ser
  | .unset | .none_ => none
  | .timeout => some (.lion "TimeoutError" "Operation timed out" true)
  | .raised e => some (serMember heap (serGroup heap (maxDepth + 1) []) e)

/-! ### `as_fresh_event` -/

/-- A subclass-defined or built-in field of an event: its value, and whether it is declared `exclude=True`. Serves `Ev` (`event.py:183-200`). -/
structure FieldVal (ν : Type) where
  value : ν
  excluded : Bool
  deriving DecidableEq, Repr

/-- An event, `event.py:183-200` and `element.py:36-38`.  `fields` are the remaining fields declared by subclasses. -/
structure Ev (ι ν ε α : Type) where
  id : ι
  createdAt : Int
  metadata : Dict String ν
  exec : Execution ε α := {}
  timeout : Option Int := none
  streaming : Bool := false
  fields : Dict String (FieldVal ν) := []

/-- The fields `model_dump` reports (`exclude=True` fields are left out), dumped and validated again by the constructor;
`again` is what dumping and re-validating makes of a value. Serves `asFresh` (`event.py:334-354`). -/
def dumped {ν : Type} (again : ν → ν) (fs : Dict String (FieldVal ν)) : Dict String ν :=
  (fs.filter (fun kv => !kv.2.excluded)).map (fun kv => (kv.1, again kv.2.value))

/-- The constructor: fields that are passed get the value, others their default (`dflt`). Serves `asFresh` (`event.py:334-354`). -/
def construct {ν : Type} (dflt : String → ν) (fs : Dict String (FieldVal ν)) (given : Dict String ν) : Dict String (FieldVal ν) :=
  fs.map (fun kv => (kv.1, { value := (given.get? kv.1).getD (dflt kv.1), excluded := kv.2.excluded }))

/-- `as_fresh_event`, `event.py:334-354`: `execution`, `id`, `created_at`, `metadata` are dropped; `timeout` and `streaming` are
`exclude=True`, of these only `timeout` is copied explicitly; `original` is what the entry `metadata["original"]` becomes. -/
def asFresh {ι ν : Type} (again : ν → ν) (dflt : String → ν) (original : ι → Int → ν) (freshId : ι) (now : Int)
    (copyMeta : Bool) (ev : Ev ι ν ε α) : Ev ι ν ε α :=
  { id := freshId, createdAt := now,
    metadata := Dict.set (if copyMeta then ev.metadata else []) "original" (original ev.id ev.createdAt),
    timeout := ev.timeout, streaming := false,
    fields := construct dflt ev.fields (dumped again ev.fields) }

end

end Verif.Event
