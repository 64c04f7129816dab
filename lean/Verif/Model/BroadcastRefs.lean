import Verif.Model.Broadcaster
import Verif.Model.RunAsync

/-!
# Model of which callbacks a broadcaster keeps alive and which bodies a broadcast runs

`src/lionherd_core/base/broadcaster.py:38-128` with `is_coro_func` (`src/lionherd_core/libs/concurrency/_utils.py:19-32`).

Subscribers are held by weak references only, but `broadcast` asks `is_coro_func` about every callback, and `functools.cache` keeps its keys for ever: a callback whose turn came is
referred to by the cache from then on (and with a bound method its receiver and function).  The program's own references are represented by the objects it has dropped; an object is collected
at once when the program drops it and no key of the cache refers to it.  Simplifications: references from one callback to another count as references of the program; other callers of
`is_coro_func` (`alcall`, `Spec`) are not part of the histories.
-/

namespace Verif.BroadcastRefs

open Broadcaster (Cb Hub Behaviour)
open RunAsync (Callable coroBody)

/-- What the program consists of: the class that owns the subscriber list, `==` of objects, what each callback is (`Callable`), and which callbacks are equal as keys of the cache.
Serves `step` (`broadcaster.py:38-128`). -/
structure World where
  owner : Nat → Nat
  eqv : Nat → Nat → Bool
  kind : Cb → Callable
  same : Cb → Cb → Bool

/-- State: the subscriber lists and collected objects, the keys of the cache of `_is_coro_func` (`_utils.py:19`), the objects the program no longer refers to. -/
structure Sys where
  hub : Hub := {}
  cache : List Cb := []
  dropped : List Nat := []

/-- The key of the cache that is equal to `c`. Serves `answer` (`_utils.py:19-32`). -/
def entry (w : World) (cache : List Cb) (c : Cb) : Option Cb := cache.find? (fun k => w.same k c)

/-- The answer of `is_coro_func` for a hashable callback, `_utils.py:19-32`: the one computed for the equal key if there is one. -/
def answer (w : World) (cache : List Cb) (c : Cb) : Bool := coroBody (w.kind ((entry w cache c).getD c))

/-- The keys after the question, `_utils.py:19-32`. -/
def remember (w : World) (cache : List Cb) (c : Cb) : List Cb := if (entry w cache c).isSome then cache else cache ++ [c]

/-- Calling it returns a coroutine. Serves `bodyRuns` (`broadcaster.py:111-117`). -/
def givesCoro (k : Callable) : Bool := k.unwrap.isCoroFn || k.unwrap.asyncObj

/-- The body of the callback is executed, `broadcaster.py:111-117`: that of a coroutine only if it is awaited. -/
def bodyRuns (w : World) (cache : List Cb) (c : Cb) : Bool := !givesCoro (w.kind c) || answer w cache c

/-- The loop of `broadcast`, `broadcaster.py:109-119`: the keys of the cache afterwards, the callbacks whose body ran, and whether all callbacks had their turn.  `is_coro_func` raises `TypeError` for
a callback that is not hashable, which is logged. -/
def loop (w : World) (beh : Cb → Behaviour) : List Cb → List Cb → List Cb × List Cb × Bool
  | cache, [] => (cache, [], true)
  | cache, c :: cs =>
    if (w.kind c).hashable then
      if bodyRuns w cache c then
        if beh c = .aborts then (remember w cache c, [c], false)
        else ((loop w beh (remember w cache c) cs).1, c :: (loop w beh (remember w cache c) cs).2.1, (loop w beh (remember w cache c) cs).2.2)
      else loop w beh (remember w cache c) cs
    else loop w beh cache cs

/-- The program can pass the callback: it refers to everything it needs. Serves `step` (`broadcaster.py:38-70`). -/
def holds (s : Sys) (cb : Cb) : Bool := cb.needs.all (fun h => !s.dropped.contains h)

/-- A key of the cache refers to the object. Serves `step` (`_utils.py:19`). -/
def pinned (s : Sys) (h : Nat) : Bool := s.cache.any (fun k => k.needs.contains h)

/-- Collecting one object. Serves `step` (`broadcaster.py:20-24`). -/
def collect (b : Hub) (h : Nat) : Hub := { b with dead := h :: b.dead }

/-- Operations. Serves `step` (`broadcaster.py:38-128`). -/
inductive Op where
  | subscribe (c : Nat) (cb : Cb)
  | unsubscribe (c : Nat) (cb : Cb)
  | drop (h : Nat)
  | broadcast (c : Nat) (accepts : Bool) (beh : Cb → Behaviour)
  | count (c : Nat)

/-- Results. Serves `step` (`broadcaster.py:38-128`). -/
inductive Out where
  | unit
  | valueError
  | ran (cs : List Cb) (complete : Bool)
  | count (n : Nat)
  deriving DecidableEq, Repr

/-- The callbacks a broadcast goes through, `broadcaster.py:107`. -/
def live (w : World) (s : Sys) (c : Nat) : List Cb := (Broadcaster.cleanup s.hub (w.owner c)).2

/-- One operation: `subscribe` `broadcaster.py:38-58`, `unsubscribe` `:60-70`, `broadcast` `:99-119`, `get_subscriber_count` `:121-128`; `drop`: the program gives up its last reference. -/
def step (w : World) (s : Sys) : Op → Sys × Out
  | .subscribe c cb => if holds s cb then ({ s with hub := Broadcaster.subscribe s.hub (w.owner c) cb }, .unit) else (s, .unit)
  | .unsubscribe c cb => if holds s cb then ({ s with hub := Broadcaster.unsubscribe s.hub w.eqv (w.owner c) cb }, .unit) else (s, .unit)
  | .drop h =>
    if pinned s h then ({ s with dropped := h :: s.dropped }, .unit)
    else ({ s with dropped := h :: s.dropped, hub := collect s.hub h }, .unit)
  | .broadcast c accepts beh =>
    if accepts then
      ({ s with hub := (Broadcaster.cleanup s.hub (w.owner c)).1, cache := (loop w beh s.cache (live w s c)).1 },
        .ran (loop w beh s.cache (live w s c)).2.1 (loop w beh s.cache (live w s c)).2.2)
    else (s, .valueError)
  | .count c => ({ s with hub := (Broadcaster.cleanup s.hub (w.owner c)).1 }, .count (live w s c).length)

/-- A history and its results. Built on `step` (`broadcaster.py:38-128`). -/
def run (w : World) : Sys → List Op → Sys × List Out
  | s, [] => (s, [])
  | s, op :: ops => ((run w (step w s op).1 ops).1, (step w s op).2 :: (run w (step w s op).1 ops).2)

end Verif.BroadcastRefs
