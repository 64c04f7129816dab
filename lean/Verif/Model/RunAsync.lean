import Verif.Py.Basic
import Verif.Py.Dict

/-!
# Running coroutines and functions

`run_async` (`src/lionherd_core/libs/concurrency/_run_async.py:15-52`), `is_coro_func`, `run_sync`
(`src/lionherd_core/libs/concurrency/_utils.py:19-57`) and `call_func` of `alcall`
(`src/lionherd_core/ln/_async_call.py:150-172`).
-/

namespace Verif.RunAsync

variable {ν : Type}

/-- How a coroutine or function ends: a value, an `Exception`, or a `BaseException` that is no `Exception` (`CancelledError`, `KeyboardInterrupt`, `SystemExit`, `BaseExceptionGroup`).
Serves `runInThread` (`_run_async.py:34-44`). -/
inductive End (ν : Type) where
  | value (v : ν)
  | exc (e : Nat)
  | base (e : Nat)
  deriving DecidableEq

/-- The two containers filled by the thread, `_run_async.py:31-32`. -/
structure Box (ν : Type) where
  result : List ν := []
  exception : List Nat := []

/-- `run_in_thread`, `_run_async.py:34-44`: `except Exception` catches no other `BaseException`; it ends the thread. -/
def runInThread (b : Box ν) : End ν → Box ν
  | .value v => { b with result := b.result ++ [v] }
  | .exc e => { b with exception := b.exception ++ [e] }
  | .base _ => b

/-- What `run_async` does for its caller; `none` is the value `None`. Serves `runAsync` (`_run_async.py:15-52`). -/
inductive Ret (ν : Type) where
  | returned (v : Option ν)
  | raised (e : Nat)
  deriving DecidableEq

/-- Lines 50-52. Serves `runAsync` (`_run_async.py:15-52`). -/
def unbox (b : Box ν) : Ret ν :=
  match b.exception with
  | e :: _ => .raised e
  | [] => .returned b.result.head?

/-- `run_async`, `_run_async.py:15-52`. -/
def runAsync (c : End ν) : Ret ν := unbox (runInThread {} c)

/-! ### `is_coro_func` -/

/-- A callable: a function or bound method (defined with `async def` or not), another object with a `__call__` method (async or not, hashable or not), or a `functools.partial`.
Serves `Callable.unwrap` (`_utils.py:23-24`). -/
inductive Callable where
  | fn (isAsync : Bool)
  | obj (asyncCall hashable : Bool)
  | partial_ (f : Callable)
  deriving DecidableEq

/-- `hash(func)` works: partials and functions hash by identity. Serves `isCoroFunc` (`_utils.py:19-32`). -/
def Callable.hashable : Callable → Bool
  | .obj _ h => h
  | _ => true

/-- The `while` loop, `_utils.py:23-24`. -/
def Callable.unwrap : Callable → Callable
  | .partial_ f => f.unwrap
  | c => c

/-- `inspect.iscoroutinefunction`. Serves `coroBody` (`_utils.py:20-27`). -/
def Callable.isCoroFn : Callable → Bool
  | .fn a => a
  | _ => false

/-- The body of `_is_coro_func`, `_utils.py:20-27`. -/
def coroBody (c : Callable) : Bool := c.unwrap.isCoroFn

/-- `is_coro_func`, `_utils.py:19-32`: `functools.cache` hashes the argument first and keeps the answers by key (equal callables have equal keys). -/
def isCoroFunc (cache : Dict Nat Bool) (key : Nat) (c : Callable) : Res (Dict Nat Bool) Bool :=
  if c.hashable then
    match cache.get? key with
    | some b => (cache, .ok b)
    | none => (cache.set key (coroBody c), .ok (coroBody c))
  else (cache, .error .typeError)

/-- A history of calls of `is_coro_func` from an empty cache. Built on `isCoroFunc` (`_utils.py:19-32`). -/
def runCoro : Dict Nat Bool → List (Nat × Callable) → List (Except Exc Bool)
  | _, [] => []
  | cache, (k, c) :: h => (isCoroFunc cache k c).2 :: runCoro (isCoroFunc cache k c).1 h

/-! ### `call_func` of `alcall` -/

/-- What calling the callable leads to: the callee runs for a time and ends. `lastAwait` is the time at which it resumes from its last suspension (`none`: it never suspends).
Serves `awaited` (`_async_call.py:155-161`). -/
structure Job (ν : Type) where
  duration : Nat
  lastAwait : Option Nat
  ends : End ν

/-- It is suspended at time `t` or later. Serves `awaited` (`_async_call.py:155-161`). -/
def Job.suspendedFrom (j : Job ν) (t : Nat) : Bool := j.lastAwait.any (fun w => decide (t ≤ w))

/-- The outcome of `call_func`: a value of the function, an awaitable that nobody awaited, an exception, or `TimeoutError`.
Serves `awaited` (`_async_call.py:155-161`). -/
inductive Called (ν : Type) where
  | value (v : ν)
  | unawaited
  | exc (e : Nat)
  | base (e : Nat)
  | timeout
  | typeError
  deriving DecidableEq

/-- The result of a finished job. Serves `awaited` (`_async_call.py:155-161`). -/
def Called.of : End ν → Called ν
  | .value v => .value v
  | .exc e => .exc e
  | .base e => .base e

/-- Awaiting a coroutine under `move_on_after(retry_timeout)`, `_async_call.py:155-161`: when the timeout has passed it is cancelled at the first suspension; code that does not suspend is not interrupted. Simplifications: a
callee that resumes exactly when the timeout passes counts as cancelled; a callee does not catch the cancellation. -/
def awaited (timeout : Option Nat) (j : Job ν) : Called ν :=
  match timeout with
  | none => .of j.ends
  | some t => if j.suspendedFrom t then .timeout else .of j.ends

/-- Does the innermost callable have an `async def` `__call__`. Serves `inThread` (`_async_call.py:165-172`). -/
def Callable.asyncObj : Callable → Bool
  | .obj a _ => a
  | _ => false

/-- `run_sync(func, item)` under `move_on_after`, `_async_call.py:165-172`: a timeout of 0 has passed at the checkpoint before the worker thread is started; otherwise the worker thread is waited for in a shielded scope, so the
timeout does not end the wait and no cancellation is caught. Calling an object with an async `__call__` returns a coroutine at once. -/
def inThread (timeout : Option Nat) (c : Callable) (j : Job ν) : Called ν :=
  if timeout = some 0 then .timeout else if c.unwrap.asyncObj then .unawaited else .of j.ends

/-- `call_func`, `_async_call.py:150-172` (with `is_coro_func` on an empty cache). -/
def callFunc (timeout : Option Nat) (c : Callable) (j : Job ν) : Called ν :=
  if c.hashable then (if coroBody c then awaited timeout j else inThread timeout c j) else .typeError

end Verif.RunAsync
