import Verif.Model.EventBus

/-! # Emissions that overlap with subscriptions, unsubscriptions and other emissions

`emit` resolves the handlers and calls them (which creates their coroutines) before its first `await`; `gather` then runs the coroutines as tasks, whose bodies begin and end in any order,
interleaved with everything else: handlers and other tasks subscribe, unsubscribe, clear, count and emit.  While `emit` runs, its local list `handlers` keeps the handlers alive.
Simplification: what a coroutine returns or raises does not matter (`return_exceptions=True`); tasks may begin in any order. -/

namespace Verif.EventBusConc

open Verif.EventBus (Bus Op Out Behaviour)

/-- A call of `emit` that has called its handlers: the handlers, the positions of those whose coroutines have begun and have ended, and whether the call runs and is cancelled.
Part of the model of `src/lionherd_core/base/eventbus.py:80-94`. -/
structure Task where
  handlers : List Nat
  begun : List Nat := []
  ended : List Nat := []
  running : Bool := true
  cancelled : Bool := false
  deriving DecidableEq, Repr

/-- What an observer sees. Part of the model of `src/lionherd_core/base/eventbus.py:33-113`. -/
inductive Ev where
  | op (o : Op)
  | emitted (e : Nat) (t : String)
  | refused (t : String)
  | began (e i h : Nat)
  | ended (e i : Nat)
  | returned (e : Nat)
  | raised (e : Nat)

/-- The bus, the calls of `emit`, and what has happened. Part of the model of `src/lionherd_core/base/eventbus.py:28-113`. -/
structure St where
  bus : Bus := {}
  tasks : List Task := []
  log : List Ev := []

/-- What can happen next, in any order: a call of another method or a garbage collection; a call of `emit`; the coroutine of handler number `i` of emission `e` begins or ends; the
emission returns; it is cancelled; it ends with the cancellation. Part of the model of `src/lionherd_core/base/eventbus.py:33-113`. -/
inductive Act where
  | op (o : Op)
  | emit (beh : Nat → Behaviour) (t : String)
  | start (e i : Nat)
  | finish (e i : Nat)
  | ret (e : Nat)
  | cancel (e : Nat)
  | abandon (e : Nat)

/-- A running emission refers to its handlers (`handlers`, `eventbus.py:89`). -/
def held (s : St) (h : Nat) : Bool := s.tasks.any (fun k => k.running && k.handlers.contains h)

/-- An object that is referred to is not collected; emissions are actions of their own. Part of the model of `src/lionherd_core/base/eventbus.py:80-94`. -/
def allowed (s : St) : Op → Bool
  | .collect h => !held s h
  | .emit _ _ => false
  | _ => true

/-- `emit` up to its first `await`, `eventbus.py:86-94`: given the bus afterwards and the handlers whose coroutines are to run, or that a call has raised. -/
def emitted (s : St) (t : String) (b : Bus) : Out → St
  | .ran hs => { bus := b, tasks := s.tasks ++ [{ handlers := hs }], log := s.log ++ [.emitted s.tasks.length t] }
  | _ => { s with bus := b, log := s.log ++ [.refused t] }

/-- The coroutine of handler number `i` begins, `_patterns.py:40-42`. -/
def start (s : St) (e i : Nat) (k : Task) : St :=
  match k.handlers[i]? with
  | none => s
  | some h =>
    if k.running && !k.begun.contains i then { s with tasks := s.tasks.set e { k with begun := i :: k.begun }, log := s.log ++ [.began e i h] } else s

/-- The coroutine of handler number `i` ends, with or without an exception, `_patterns.py:41-46`. -/
def finish (s : St) (e i : Nat) (k : Task) : St :=
  if k.begun.contains i && !k.ended.contains i then { s with tasks := s.tasks.set e { k with ended := i :: k.ended }, log := s.log ++ [.ended e i] } else s

/-- The task group ends when all its tasks have ended, `_patterns.py:49-52`; then `emit` returns, `eventbus.py:94`. -/
def ret (s : St) (e : Nat) (k : Task) : St :=
  if k.running && (List.range k.handlers.length).all k.ended.contains then { s with tasks := s.tasks.set e { k with running := false }, log := s.log ++ [.returned e] } else s

/-- A cancelled emission ends when the coroutines that have begun have ended; the others are never run to their first `await`. Part of the model of
`src/lionherd_core/base/eventbus.py:94`. -/
def abandon (s : St) (e : Nat) (k : Task) : St :=
  if k.running && k.cancelled && k.begun.all k.ended.contains then { s with tasks := s.tasks.set e { k with running := false }, log := s.log ++ [.raised e] } else s

/-- One step. Part of the model of `src/lionherd_core/base/eventbus.py:33-113`. -/
def step (eqv : Nat → Nat → Bool) (s : St) : Act → St
  | .op o => if allowed s o then { s with bus := (EventBus.step eqv s.bus o).1, log := s.log ++ [.op o] } else s
  | .emit beh t => emitted s t (EventBus.emit s.bus beh t).1 (EventBus.emit s.bus beh t).2
  | .start e i => ((s.tasks[e]?).map (start s e i)).getD s
  | .finish e i => ((s.tasks[e]?).map (finish s e i)).getD s
  | .ret e => ((s.tasks[e]?).map (ret s e)).getD s
  | .cancel e => { s with tasks := s.tasks.modify e (fun k => { k with cancelled := true }) }
  | .abandon e => ((s.tasks[e]?).map (abandon s e)).getD s

/-- A history. Part of the model of `src/lionherd_core/base/eventbus.py:33-113`. -/
def run (eqv : Nat → Nat → Bool) (s : St) (as : List Act) : St := as.foldl (step eqv) s

end Verif.EventBusConc
