import Verif.Model.Event

/-!
# Model of assigning the status of an event from outside, and of validating its timeout

`src/lionherd_core/base/event.py:202-235`: the setter of `Event.status` between the steps of any number of `invoke` calls
(`Verif.Event.step`), and `_validate_timeout`.
-/

namespace Verif.Event

variable {τ ε α : Type}

/-- What is assigned: a member of `EventStatus`, a text, or anything else. Serves `assigned` (`event.py:227-235`). -/
inductive Value where
  | member (s : Status)
  | text (s : String)
  | other
  deriving DecidableEq, Repr

/-- `EventStatus(val)` of a text, `event.py:231` and `event.py:39-45`: `none` is the `ValueError` of the enum. -/
def Status.ofText (s : String) : Option Status :=
  if s = "pending" then some .pending
  else if s = "processing" then some .processing
  else if s = "completed" then some .completed
  else if s = "failed" then some .failed
  else if s = "cancelled" then some .cancelled
  else if s = "skipped" then some .skipped
  else if s = "aborted" then some .aborted
  else none

/-- The value that the setter stores, `event.py:230-234`: members are texts themselves (`EventStatus` is a `StrEnum`). -/
def assigned : Value → Except Exc Status
  | .member s => .ok s
  | .text s =>
    match Status.ofText s with
    | some x => .ok x
    | none => .error .valueError
  | .other => .error .valueError

/-- `event.status = val`, `event.py:227-235`. -/
def assign (s : Sys τ ε α) (v : Value) : Res (Sys τ ε α) Unit :=
  match assigned v with
  | .ok x => ({ s with exec := { s.exec with status := x } }, .ok ())
  | .error e => (s, .error e)

/-- A step of a history: a step of some `invoke` call, or an assignment. Serves `move` (`event.py:227-235`). -/
inductive Move (τ ε α : Type) where
  | act (a : Act τ ε α)
  | assign (v : Value)

/-- One step of a history, `event.py:227-328`. -/
def move [DecidableEq τ] (heap : ε → ExcObj ε) (s : Sys τ ε α) : Move τ ε α → Sys τ ε α
  | .act a => step heap s a
  | .assign v => (assign s v).1

/-- A history, `event.py:227-328`. -/
def moves [DecidableEq τ] (heap : ε → ExcObj ε) (s : Sys τ ε α) (ms : List (Move τ ε α)) : Sys τ ε α := ms.foldl (move heap) s

/-- A timeout: a number of units, or a float that is not finite. Serves `checkTimeout` (`event.py:202-211`). -/
inductive Secs where
  | num (n : Int)
  | inf (neg : Bool)
  | nan
  deriving DecidableEq, Repr

/-- `_validate_timeout`, `event.py:202-211`. -/
def checkTimeout : Option Secs → Except Exc (Option Secs)
  | none => .ok none
  | some (.num n) => if n ≤ 0 then .error .valueError else .ok (some (.num n))
  | some (.inf _) => .error .valueError
  | some .nan => .error .valueError

end Verif.Event
