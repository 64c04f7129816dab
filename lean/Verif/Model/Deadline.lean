import Verif.Py.Basic

/-!
# Model of the cancellation helpers (`src/lionherd_core/libs/concurrency/_cancel.py:27-85`, `shield` of `_errors.py:34-46`)

Times are integers ordered like the floats of the clock (simplified: no rounding), extended by the
two infinities. The cancel scopes of AnyIO are the library's documented behaviour: a scope has a
deadline, is cancelled when the deadline passes or on request, and hides its ancestors if shielded.
-/

namespace Verif.Deadline

/-- A float that is a time or an infinity. Serves `toNone` (`_cancel.py:85`). -/
inductive Time where
  | negInf
  | at (t : Int)
  | posInf
  deriving DecidableEq

/-- `min` of two floats. Serves the model of `_cancel.py:79-85`. -/
def Time.min : Time → Time → Time
  | .negInf, _ => .negInf
  | _, .negInf => .negInf
  | .posInf, t => t
  | t, .posInf => t
  | .at a, .at b => .at (if b < a then b else a)

/-- An entered `anyio.CancelScope`: its deadline, whether it has been cancelled, whether it is shielded.
Serves `plain` (`_cancel.py:31, 44, 56, 70`). -/
structure Scope where
  deadline : Time
  cancelled : Bool := false
  shield : Bool := false
  deriving DecidableEq

/-- Which helper opened the block: `fail_after`, `move_on_after`, `fail_at`, `move_on_at` (`_cancel.py:27-76`), `shield` (`_errors.py:34-46`). -/
inductive Helper where
  | failAfter (seconds : Option Int)
  | moveOnAfter (seconds : Option Int)
  | failAt (deadline : Option Int)
  | moveOnAt (deadline : Option Int)
  | shielded
  deriving DecidableEq

/-- `max(0.0, deadline - now)`, `_cancel.py:60, 74`. -/
def remaining (deadline now : Int) : Int := if deadline - now < 0 then 0 else deadline - now

/-- Entering a scope (AnyIO): a scope whose deadline is not after the current time is cancelled at once. Serves the model of `_cancel.py:59, 73`. -/
def entered (deadline : Time) (now : Int) (shield : Bool) : Scope :=
  match deadline with
  | .at d => ⟨.at d, decide (d ≤ now), shield⟩
  | t => ⟨t, false, shield⟩

/-- `anyio.fail_after(seconds)` / `anyio.move_on_after(seconds)` called at a time: the deadline is the current time plus the seconds.
Serves `openScope` (`_cancel.py:59, 73`). -/
def after (seconds now : Int) : Scope := entered (.at (now + seconds)) now false

/-- `CancelScope()`: no deadline (`_cancel.py:31, 44, 56, 70`). -/
def plain : Scope := ⟨.posInf, false, false⟩

/-- The scope opened by a helper. `t1` is the clock read by `current_time()` in `fail_at`/`move_on_at` (`_cancel.py:59, 73`), `t2` the clock read by AnyIO when it opens the scope. -/
def openScope (h : Helper) (t1 t2 : Int) : Scope :=
  match h with
  | .failAfter none => plain
  | .failAfter (some s) => after s t2
  | .moveOnAfter none => plain
  | .moveOnAfter (some s) => after s t2
  | .failAt none => plain
  | .failAt (some d) => after (remaining d t1) t2
  | .moveOnAt none => plain
  | .moveOnAt (some d) => after (remaining d t1) t2
  | .shielded => ⟨.posInf, false, true⟩

/-- `anyio.current_effective_deadline()` for the entered scopes, innermost first. Serves `effectiveDeadline` (`_cancel.py:79-85`). -/
def currentEffective (acc : Time) : List Scope → Time
  | [] => acc
  | s :: rest =>
    if s.cancelled then .negInf
    else if s.shield then acc.min s.deadline
    else currentEffective (acc.min s.deadline) rest

/-- `None if isinf(d) else d`, `_cancel.py:85`. -/
def toNone : Time → Option Int
  | .at t => some t
  | _ => none

/-- `effective_deadline()`, `_cancel.py:79-85`. -/
def effectiveDeadline (scopes : List Scope) : Option Int :=
  toNone (currentEffective .posInf scopes)

/-- `scope.cancel()` on the n-th enclosing scope, or its deadline passing.
Part of the model of `src/lionherd_core/libs/concurrency/_cancel.py:27-85`. -/
def cancel : Nat → List Scope → List Scope
  | _, [] => []
  | 0, s :: rest => { s with cancelled := true } :: rest
  | n + 1, s :: rest => s :: cancel n rest

/-- A helper call with the two clock readings made on entry. Serves the model of `_cancel.py:79-85`. -/
structure Entry where
  helper : Helper
  t1 : Int
  t2 : Int
  deriving DecidableEq

/-- The scopes of nested blocks, innermost first. Serves `effectiveDeadline` (`_cancel.py:79-85`). -/
def scopes (es : List Entry) : List Scope := es.map (fun e => openScope e.helper e.t1 e.t2)

/-! ### Leaving a block -/

/-- How the body of a block ended: normally, with an exception, or by a cancellation (which propagates until a cancelled scope catches it).
Serves `leaveHelper` (`_cancel.py:35-36, 61-62`). -/
inductive Body where
  | done
  | raised (e : Exc)
  | cancelled
  deriving DecidableEq

/-- How the `with` block ends. Serves `leaveHelper` (`_cancel.py:35-36, 61-62`). -/
inductive Out where
  | done
  | raised (e : Exc)
  | timeout
  | cancelled
  deriving DecidableEq

/-- `CancelScope.__exit__` (AnyIO): a cancelled scope none of whose visible ancestors is cancelled catches the cancellation; the flag says it was caught.
Serves the model of `_cancel.py:35-36, 61-62`. -/
def caught (s : Scope) (outerCancelled : Bool) (b : Body) : Bool :=
  match b with
  | .cancelled => s.cancelled && !(outerCancelled && !s.shield)
  | _ => false

/-- Leaving an AnyIO scope silently: a caught cancellation ends the block normally. Serves `leaveHelper` (`_cancel.py:35-36, 61-62`). -/
def leave (s : Scope) (outerCancelled : Bool) (b : Body) : Out :=
  match b with
  | .done => .done
  | .raised e => .raised e
  | .cancelled => if caught s outerCancelled b then .done else .cancelled

/-- The test of `anyio.fail_after`: the deadline has passed. Serves the model of `_cancel.py:35-36, 61-62`. -/
def passed (s : Scope) (now : Int) : Bool :=
  match s.deadline with
  | .at d => decide (d ≤ now)
  | _ => false

/-- Leaving `anyio.fail_after`: a caught cancellation becomes `TimeoutError` if the deadline has passed.
Serves `leaveHelper` (`_cancel.py:35-36, 61-62`). -/
def leaveFail (s : Scope) (outerCancelled : Bool) (b : Body) (now : Int) : Out :=
  if caught s outerCancelled b && passed s now then .timeout else leave s outerCancelled b

/-- Leaving the block of a helper: `fail_after`/`fail_at` with a limit go through `anyio.fail_after` (`_cancel.py:35-36, 61-62`), the others through a plain or `move_on` scope. -/
def leaveHelper (h : Helper) (s : Scope) (outerCancelled : Bool) (b : Body) (now : Int) : Out :=
  match h with
  | .failAfter (some _) => leaveFail s outerCancelled b now
  | .failAt (some _) => leaveFail s outerCancelled b now
  | _ => leave s outerCancelled b

end Verif.Deadline
