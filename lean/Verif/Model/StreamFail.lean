import Verif.Model.Fanout

/-!
# `CompletionStream` with awaitables that fail (`src/lionherd_core/libs/concurrency/_patterns.py:130-196`)

As `Patterns.Stream`, for arbitrary outcomes of the awaitables.  The same is assumed of AnyIO task groups as in `Verif.Fanout`; in
addition, sending to and receiving from a memory stream in a cancelled scope raises the cancellation before anything is transferred.
Cancellation from outside the block and exceptions raised by the body of the block are not modelled.
-/

namespace Verif.StreamFail

open Verif.Fanout (Outcome St upd)

/-- Number of awaitables, `limit` (`None` and `0`: no limiter), and how each awaitable ends if it is not cancelled.
Serves `slotFree` (`_patterns.py:148-152`). -/
structure Cfg where
  n : Nat
  limit : Option Nat
  res : Nat → Outcome

/-- The body of the block: still running, ended by itself, or ended by the cancellation of the scope. Serves the model of `_patterns.py:148-152`. -/
inductive Body where
  | inside
  | done
  | cancelled
  deriving DecidableEq, Repr

/-- `buf`: the memory stream; `got`: what `__anext__` returned; `errs`: exceptions collected by the group; `scope`: the group's scope is cancelled; `body`: how far the body of the block is.
Serves `slotFree` (`_patterns.py:148-152`). -/
structure Sys where
  st : Nat → St := fun _ => .waiting
  buf : List (Nat × Nat) := []
  got : List (Nat × Nat) := []
  errs : List (Nat × Outcome) := []
  scope : Bool := false
  body : Body := .inside

/-- Actions: a runner gets its slot; its awaitable ends by itself; the runner receives the cancellation of the scope and its awaitable reacts with `o`; the consumer asks for a result; the body of the block ends.
Built on `next` (`_patterns.py:187-196`). -/
inductive Act where
  | start (i : Nat)
  | finish (i : Nat)
  | cancel (i : Nat) (o : Outcome)
  | next
  | leave
  deriving DecidableEq, Repr

/-- The limiter has a free slot, `_patterns.py:148-152`. -/
def slotFree (cfg : Cfg) (s : Sys) : Bool :=
  match cfg.limit with
  | none => true
  | some 0 => true
  | some (k + 1) => decide (((List.range cfg.n).filter (fun i => s.st i == .running)).length < k + 1)

/-- The end of a runner whose awaitable ended with `o`, `_patterns.py:153-164`: a value is sent (the buffer has room for all) unless the scope is cancelled; an exception ends the task, which cancels the scope, and
is collected unless it is a cancellation. -/
def close (s : Sys) (i : Nat) : Outcome → Sys
  | .ok v => if s.scope then { s with st := upd s.st i .ended } else { s with st := upd s.st i .ended, buf := s.buf ++ [(i, v)] }
  | .cancelled => { s with st := upd s.st i .ended, scope := true }
  | o => { s with st := upd s.st i .ended, scope := true, errs := s.errs ++ [(i, o)] }

/-- `__anext__`, `_patterns.py:187-196`: after `n` results it stops without waiting; in a cancelled scope the receive raises, which ends the body of the block. -/
def next (cfg : Cfg) (s : Sys) : Sys :=
  if s.body ≠ .inside ∨ cfg.n ≤ s.got.length then s
  else if s.scope then { s with body := .cancelled }
  else
    match s.buf with
    | [] => s
    | x :: b => { s with buf := b, got := s.got ++ [x] }

/-- One action; an action that is not enabled changes nothing. Built on `slotFree` (`_patterns.py:148-152`). -/
def step (cfg : Cfg) (s : Sys) : Act → Sys
  | .start i => if i < cfg.n ∧ s.st i = .waiting ∧ slotFree cfg s = true then { s with st := upd s.st i .running } else s
  | .finish i => if i < cfg.n ∧ s.st i = .running then close s i (cfg.res i) else s
  | .cancel i o =>
    if i < cfg.n ∧ s.scope = true ∧ s.st i = .running then close s i o
    else if i < cfg.n ∧ s.scope = true ∧ s.st i = .waiting then { s with st := upd s.st i .ended }
    else s
  | .next => next cfg s
  | .leave => if s.body = .inside then { s with body := .done } else s

/-- A schedule. Built on `next` (`_patterns.py:187-196`). -/
def run (cfg : Cfg) (acts : List Act) : Sys := acts.foldl (step cfg) {}

/-- How the `async with` statement ends. Serves `final` (`_patterns.py:172-180`). -/
inductive Final where
  | quiet
  | cancelled
  | raised (errs : List (Nat × Outcome))
  deriving DecidableEq, Repr

/-- `__aexit__`, `_patterns.py:172-180`: waits for all tasks; the group raises what it collected; otherwise its verdict on a
cancellation that ended the body is dropped (`return False`), so that cancellation goes on to the caller. -/
def final (cfg : Cfg) (s : Sys) : Option Final :=
  if s.body = .inside ∨ (List.range cfg.n).all (fun i => s.st i == .ended) = false then none
  else if s.errs ≠ [] then some (.raised s.errs)
  else if s.body = .cancelled then some .cancelled
  else some .quiet

end Verif.StreamFail
