import Verif.Model.Fanout

/-! # Model of the lives of the awaitables of `race` (`src/lionherd_core/libs/concurrency/_patterns.py:62-84`)

`Verif.Model.Patterns` says which outcome `race` gives; here the awaitables are followed until the call has ended.  An awaitable runs, its runner then waits for its outcome to be taken, and the
runner ends.  A history lists what happens, one thing at a time; `step` gives `none` for what cannot happen.  The task group and the stream without buffer are those of AnyIO, as documented.
Simplified: the awaitables are begun together, and a runner whose scope is cancelled ends at its next wait. -/

namespace Verif.RaceLive

open Verif.Fanout (Outcome)

/-- Where an awaitable and its runner are. Serves `State` (`_patterns.py:68-73`). -/
inductive Phase where
  | running
  | offering
  | ended
  deriving DecidableEq, Repr

/-- The awaitables, the offers in their order, what the body received, whether the caller was cancelled, and whether the block has been left (`_patterns.py:66-79`). -/
structure State where
  phase : Nat → Phase := fun _ => .running
  offers : List (Nat × Outcome) := []
  got : Option (Nat × Outcome) := none
  outside : Bool := false
  left : Bool := false

/-- The scope of the group is cancelled: the body received (`_patterns.py:78-79`) or the caller was cancelled. -/
def cancelled (s : State) : Bool := s.got.isSome || s.outside

/-- What happens: an awaitable ends, by a value, an exception or a cancellation (`_patterns.py:70-73`); a runner whose offer was taken or whose scope is cancelled ends (71, 73); the body
receives and cancels the scope (78-79); the caller is cancelled; the block is left (75-79). -/
inductive Op where
  | finish (i : Nat) (o : Outcome)
  | done (i : Nat)
  | recv
  | outside
  | leave
  deriving DecidableEq, Repr

/-- Assignment to one place. Serves `step` (`_patterns.py:68-73`). -/
def upd (g : Nat → Phase) (k : Nat) (p : Phase) : Nat → Phase := fun i => if i = k then p else g i

/-- All runners have ended, which the task group waits for, `_patterns.py:75`. -/
def allEnded (n : Nat) (s : State) : Bool := (List.range n).all fun k => decide (s.phase k = .ended)

/-- An awaitable ends: its runner offers the outcome (`_patterns.py:71, 73`), or fails to because the scope is cancelled, and ends. -/
def finish (s : State) (i : Nat) (o : Outcome) : State :=
  if cancelled s then { s with phase := upd s.phase i .ended } else { s with phase := upd s.phase i .offering, offers := s.offers ++ [(i, o)] }

/-- `ok, payload = await recv.receive(); tg.cancel_scope.cancel()`, `_patterns.py:78-79`. -/
def recv (s : State) : Option State := if cancelled s then none else s.offers.head?.map fun x => { s with got := some x, offers := s.offers.tail }

/-- One step of `race` with `n` awaitables, `_patterns.py:62-84`. -/
def step (n : Nat) (s : State) : Op → Option State
  | .finish i o => if i < n ∧ s.phase i = .running then some (finish s i o) else none
  | .done i => if i < n ∧ s.phase i = .offering ∧ cancelled s = true then some { s with phase := upd s.phase i .ended } else none
  | .recv => recv s
  | .outside => if s.left then none else some { s with outside := true }
  | .leave => if s.left = false ∧ cancelled s = true ∧ allEnded n s = true then some { s with left := true } else none

/-- A history, `_patterns.py:62-84`. -/
def run (n : Nat) : State → List Op → Option State
  | s, [] => some s
  | s, o :: os => (step n s o).bind fun t => run n t os

/-- How the call has ended, if it has: the outcome received (`_patterns.py:82-84`), or the cancellation of the caller. -/
def outcome (s : State) : Option Outcome := if s.left then (if s.outside then some .cancelled else s.got.map Prod.snd) else none

end Verif.RaceLive
