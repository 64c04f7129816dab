import Verif.Py.Basic

/-!
# Model of concurrent `Pile.include` / `Pile.exclude` (`src/lionherd_core/base/pile.py:212-252, 328-355`)

Any number of threads, each making one call.  Reading `item.id in self._items` is atomic (one
dictionary lookup) but takes no lock; `add` and `remove` run under the pile's lock
(`@synchronized`), with a visible intermediate state between the write to `_items` and the
write to `_progression`.
-/

namespace Verif.PileConc

/-- The calls: `include(x)`, where `valid` says whether the item passes the type check of `add`, and `exclude(x)`.
Serves `check` (`pile.py:336-338`). -/
inductive Call where
  | incl (x : Nat) (valid : Bool)
  | excl (x : Nat)
  deriving DecidableEq

/-- Where a call is: not started; past the unlocked membership check; inside the locked section after the write to `_items`; finished with a result.
Serves the model of `pile.py:336-338`. -/
inductive Phase where
  | start
  | checked
  | mid
  | done (result : Bool)
  deriving DecidableEq

/-- Keys of `_items` in insertion order, `_progression`, the holder of the lock, and the phase of every thread. Serves `check` (`pile.py:336-338`). -/
structure State where
  items : List Nat
  order : List Nat
  lock : Option Nat
  phase : Nat → Phase

/-- Set the phase of one thread. Serves `check` (`pile.py:336-338`). -/
def State.setPhase (s : State) (t : Nat) (p : Phase) : State := { s with phase := fun t' => if t' = t then p else s.phase t' }

/-- The unlocked check: `include` `pile.py:336-338`, `exclude` `pile.py:349-352`. -/
def check (s : State) (t : Nat) : Call → State
  | .incl x _ => if x ∈ s.items then s.setPhase t (.done true) else s.setPhase t .checked
  | .excl x => if x ∈ s.items then s.setPhase t .checked else s.setPhase t (.done true)

/-- Entering `add` (`pile.py:223-228`) or `remove` (`pile.py:246-249`) with the lock; an exception releases the lock and is suppressed by the caller, which returns `False` (`pile.py:336-340, 349-355`). -/
def enter (s : State) (t : Nat) : Call → State
  | .incl x valid =>
    if valid = false ∨ x ∈ s.items then s.setPhase t (.done false)
    else { s with items := s.items ++ [x], lock := some t }.setPhase t .mid
  | .excl x =>
    if x ∈ s.items then { s with items := s.items.erase x, lock := some t }.setPhase t .mid
    else s.setPhase t (.done false)

/-- Finishing `add` (`pile.py:229`) or `remove` (`pile.py:251`) and releasing the lock; the caller returns `True`. -/
def leave (s : State) (t : Nat) : Call → State
  | .incl x _ => { s with order := s.order ++ [x], lock := none }.setPhase t (.done true)
  | .excl x => { s with order := s.order.erase x, lock := none }.setPhase t (.done true)

/-- One step of thread `t`; a thread that waits for the lock does not move. Built on `check` (`pile.py:336-338`). -/
def step (calls : Nat → Call) (s : State) (t : Nat) : State :=
  match s.phase t with
  | .start => check s t (calls t)
  | .checked => if s.lock = none then enter s t (calls t) else s
  | .mid => leave s t (calls t)
  | .done _ => s

/-- A pile with the given items and no call started. Part of the model of `src/lionherd_core/base/pile.py:212-252, 328-355`. -/
def initial (items : List Nat) : State := ⟨items, items, none, fun _ => .start⟩

/-- An interleaving: which thread moves next. Built on `check` (`pile.py:336-338`). -/
def run (calls : Nat → Call) (items : List Nat) (sched : List Nat) : State := sched.foldl (step calls) (initial items)

end Verif.PileConc
