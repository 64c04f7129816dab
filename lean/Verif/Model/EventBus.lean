import Verif.Py.Basic
import Verif.Py.Dict

/-!
# Model of `src/lionherd_core/base/eventbus.py`

A handler is an object; objects are natural numbers (identity).  A weak reference is represented by its referent; calling it gives the
referent unless that was collected (`dead`).  An identity is never reused: a real weak reference to a collected object stays dead even if a new
object gets the same address.  `eqv` is Python's `==` between handlers (identity for functions).  `list.remove(weak_ref)` compares weak references:
equal when both referents are alive and `==`.

`emit` runs the coroutines with `gather(..., return_exceptions=True)` (`Verif/Model/Patterns.lean`); its observable part here is which handlers' coroutines are run.
-/

namespace Verif.EventBus

/-- What calling a handler with the emitted arguments does: it returns something that is then awaited (and may fail while being awaited), or the call
itself raises (for example a wrong number of arguments). Serves `emit` (`eventbus.py:80-94`). -/
inductive Behaviour where
  | awaitable
  | raises
  deriving DecidableEq, Repr

/-- State: `_subs`, and which handler objects were garbage collected. Serves `subscribe` (`eventbus.py:33-42`). -/
structure Bus where
  subs : Dict String (List Nat) := []
  dead : List Nat := []
  deriving DecidableEq, Repr

/-- `weak_ref() is not None`. Serves `unsubscribe` (`eventbus.py:44-54`). -/
def alive (b : Bus) (h : Nat) : Bool := !b.dead.contains h

/-- `self._subs[topic]` (a `defaultdict(list)`). Serves `subscribe` (`eventbus.py:33-42`). -/
def refs (b : Bus) (t : String) : List Nat := (b.subs.get? t).getD []

/-- `subscribe`, `eventbus.py:33-42`. -/
def subscribe (b : Bus) (t : String) (h : Nat) : Bus := { b with subs := b.subs.set t (refs b t ++ [h]) }

/-- `list.remove(weak_ref)`: removes the first equal weak reference. Serves `unsubscribe` (`eventbus.py:44-54`). -/
def removeRef (b : Bus) (eqv : Nat → Nat → Bool) (h : Nat) : List Nat → List Nat
  | [] => []
  | r :: rs => if r = h ∨ (alive b r = true ∧ alive b h = true ∧ eqv r h = true) then rs else r :: removeRef b eqv h rs

/-- `unsubscribe`, `eventbus.py:44-54`. -/
def unsubscribe (b : Bus) (eqv : Nat → Nat → Bool) (t : String) (h : Nat) : Bus × Bool :=
  if b.subs.has t = false then (b, false)
  else if (refs b t).any (fun r => alive b r && r == h) then
    ({ b with subs := b.subs.set t (removeRef b eqv h (refs b t)) }, true)
  else (b, false)

/-- `_cleanup_dead_refs`, `eventbus.py:56-78`: the new state and the live handlers. -/
def cleanup (b : Bus) (t : String) : Bus × List Nat :=
  ({ b with subs := b.subs.set t ((refs b t).filter (alive b)) }, (refs b t).filter (alive b))

/-- Evaluation of `gather(*(h(*args) for h in handlers))`: the handlers whose coroutines are run; `none` when one of the calls raises (no coroutine is
awaited then). Serves `emit` (`eventbus.py:80-94`). -/
def callAll (beh : Nat → Behaviour) : List Nat → Option (List Nat)
  | [] => some []
  | h :: hs =>
    match beh h with
    | .raises => none
    | .awaitable => (callAll beh hs).map (h :: ·)

/-- Result of an operation. Serves `emit` (`eventbus.py:80-94`). -/
inductive Out where
  | unit
  | bool (b : Bool)
  | count (n : Nat)
  | ran (hs : List Nat)     -- `emit` returned; these handlers' coroutines were run
  | raised                -- `emit` raised; no handler was run
  | topics (ts : List String)
  deriving DecidableEq, Repr

/-- `emit`, `eventbus.py:80-94`. -/
def emit (b : Bus) (beh : Nat → Behaviour) (t : String) : Bus × Out :=
  if b.subs.has t = false then (b, .ran [])
  else
    match callAll beh (cleanup b t).2 with
    | some hs => ((cleanup b t).1, .ran hs)
    | none => ((cleanup b t).1, .raised)

/-- `clear`, `eventbus.py:96-101`. -/
def clear (b : Bus) (t : Option String) : Bus :=
  match t with
  | none => { b with subs := [] }
  | some t => { b with subs := b.subs.del t }

/-- `handler_count`, `eventbus.py:107-113`. -/
def handlerCount (b : Bus) (t : String) : Bus × Nat :=
  if b.subs.has t = false then (b, 0) else ((cleanup b t).1, (cleanup b t).2.length)

/-- Operations; `collect h`: the object `h` is garbage collected.  A collected object cannot be passed as an argument.
Serves the model of `eventbus.py:80-94`. -/
inductive Op where
  | subscribe (t : String) (h : Nat)
  | unsubscribe (t : String) (h : Nat)
  | collect (h : Nat)
  | emit (beh : Nat → Behaviour) (t : String)
  | clear (t : Option String)
  | handlerCount (t : String)
  | topics

/-- One operation. Serves the model of `eventbus.py:80-94`. -/
def step (eqv : Nat → Nat → Bool) (b : Bus) : Op → Bus × Out
  | .subscribe t h => if alive b h then (subscribe b t h, .unit) else (b, .unit)
  | .unsubscribe t h => if alive b h then let r := unsubscribe b eqv t h; (r.1, .bool r.2) else (b, .unit)
  | .collect h => ({ b with dead := h :: b.dead }, .unit)
  | .emit beh t => emit b beh t
  | .clear t => (clear b t, .unit)
  | .handlerCount t => let r := handlerCount b t; (r.1, .count r.2)
  | .topics => (b, .topics b.subs.keys)

/-- A history and its results. Serves the model of `eventbus.py:80-94`. -/
def run (eqv : Nat → Nat → Bool) : Bus → List Op → Bus × List Out
  | b, [] => (b, [])
  | b, op :: ops =>
    let r := step eqv b op
    let r' := run eqv r.1 ops
    (r'.1, r.2 :: r'.2)

end Verif.EventBus
