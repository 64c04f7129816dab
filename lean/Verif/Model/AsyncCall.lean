import Verif.Model.Fanout

/-!
# `alcall` and `bcall` of `src/lionherd_core/ln/_async_call.py`

Here the input is the list that results from input normalisation and the output is not normalised; `Verif/Model/Alcall.lean` has the whole functions.
Delays (`delay_before_start`, `throttle_period`, retry delays) only restrict schedules and are left to the scheduler; `Verif/Model/AlcallTime.lean` has them.
-/

namespace Verif.AsyncCall

open Verif.Fanout

/-- `execute_task`, `_async_call.py:174-199`.  `script k`: how the `k`-th attempt on this item ends (from 0; a timed out attempt is an `exc`); `left`: remaining retries; returns the number of attempts made and the outcome. -/
def execTask (script : Nat → Outcome) (default : Option Nat) : Nat → Nat → Nat × Outcome
  | left, k =>
    match script k with
    | .ok v => (k + 1, .ok v)
    | .cancelled => (k + 1, .cancelled)
    | .base e => (k + 1, .base e)
    | .exc e =>
      match left with
      | left + 1 => execTask script default left (k + 1)
      | 0 =>
        match default with
        | some d => (k + 1, .ok d)
        | none => (k + 1, .exc e)

/-- Parameters of `alcall`. Serves `alcallCfg` (`_async_call.py:201-231`). -/
structure AParams where
  retryAttempts : Int := 0
  default : Option Nat := none
  maxConcurrent : Option Nat := none
  returnExc : Bool := false

/-- The outcome of the task for item `i`. Serves `alcallCfg` (`_async_call.py:201-231`). -/
def taskOutcome (p : AParams) (script : Nat → Nat → Outcome) (i : Nat) : Outcome :=
  (execTask (script i) p.default p.retryAttempts.toNat 0).2

/-- Number of attempts on item `i`. Built on `execTask` (`_async_call.py:174-199`). -/
def taskAttempts (p : AParams) (script : Nat → Nat → Outcome) (i : Nat) : Nat :=
  (execTask (script i) p.default p.retryAttempts.toNat 0).1

/-- `Semaphore(max_concurrent) if max_concurrent else None`. Serves `alcallCfg` (`_async_call.py:201-231`). -/
def effLimit : Option Nat → Option Nat
  | some 0 => none
  | l => l

/-- The task group of `alcall`, `_async_call.py:201-231`. -/
def alcallCfg (p : AParams) (n : Nat) (script : Nat → Nat → Outcome) : Cfg :=
  { n := n, limit := effLimit p.maxConcurrent, returnExc := p.returnExc, waitCaught := true, res := taskOutcome p script }

/-- The batches of `bcall`, `_async_call.py:262-266`: `input_[i : i + batch_size] for i in range(0, len(input_), batch_size)`, `batch_size > 0`.
`fuel` bounds the number of batches by the length. -/
def batchesFrom {α : Type} (l : List α) (size : Nat) : Nat → Nat → List (List α)
  | 0, _ => []
  | fuel + 1, i => if i < l.length then ((l.drop i).take size) :: batchesFrom l size fuel (i + size) else []

/-- Built on `batchesFrom` (`_async_call.py:262-266`). -/
def batches {α : Type} (l : List α) (size : Nat) : List (List α) := batchesFrom l size l.length 0

end Verif.AsyncCall
