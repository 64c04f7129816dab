import Verif.Model.Executor

/-!
# Model of streaming events in the executor

`consume_stream` in `Processor.process` (`src/lionherd_core/base/processor.py:254-268`) iterates over `event.stream()`, which subclasses of
`Event` define (`src/lionherd_core/base/event.py:330-332`); nothing else touches `event.execution` meanwhile.
-/

namespace Verif.Streaming

open Verif.Event (Status)
open Verif.Executor

/-- How an async generator ends: it is exhausted, it raises an `Exception`, or it is cancelled. Serves the model of `processor.py:256-266`. -/
inductive Ending where
  | exhausted
  | raised
  | cancelled
  deriving DecidableEq, Repr

/-- What `event.stream()` does to the execution of its event: the statuses its code assigns, in order, and how it ends.
Serves `consume` (`processor.py:256-266`). -/
structure Body where
  sets : List Status
  ending : Ending
  deriving DecidableEq, Repr

/-- `event.execution.status` after the stream, for an event that was pending. Serves `consume` (`processor.py:256-266`). -/
def Body.final (b : Body) : Status := b.sets.getLastD .pending

variable {γ : Type} [DecidableEq γ]

/-- `consume_stream`, `processor.py:256-266`, of the `k`-th executing event: after the end and after an `Exception` the event is filed under
its current status; a cancellation passes through. -/
def consume (sub : γ → γ → Bool) (c : Processor.Cfg) (s : Sys γ) (k : Nat) (b : Body) : Sys γ :=
  match b.ending with
  | .exhausted => step sub c s (.finish k b.final)
  | .raised => step sub c s (.finish k b.final)
  | .cancelled => step sub c s (.vanish k)

end Verif.Streaming
