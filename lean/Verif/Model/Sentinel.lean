import Verif.Py.Basic
import Verif.Py.Dict

/-!
# Sentinels and singletons (`src/lionherd_core/types/_sentinel.py`)
-/

namespace Verif.Sentinel

/-! ### `is_sentinel` -/

/-- What `value == x` gives for the six empty values of `_EMPTY_TUPLE` (`_sentinel.py:124`), as seen by `in`: a truth value or an exception. -/
structure Obj where
  isNone : Bool
  isUndefined : Bool
  isUnset : Bool
  eqs : List (Except Exc Bool)
  deriving DecidableEq

/-- `value in _EMPTY_TUPLE`: stops at the first match, passes on exceptions. Serves `isSentinel` (`_sentinel.py:127-138`). -/
def isIn : List (Except Exc Bool) → Except Exc Bool
  | [] => .ok false
  | .error e :: _ => .error e
  | .ok true :: _ => .ok true
  | .ok false :: rest => isIn rest

/-- `value is Undefined or value is Unset`, `_sentinel.py:138`. -/
def Obj.plain (v : Obj) : Bool := v.isUndefined || v.isUnset

/-- `is_sentinel`, `_sentinel.py:127-138`. -/
def isSentinel (v : Obj) (noneAs emptyAs : Bool) : Except Exc Bool :=
  if noneAs && v.isNone then .ok true
  else if emptyAs then
    match isIn v.eqs with
    | .error e => .error e
    | .ok true => .ok true
    | .ok false => .ok v.plain
  else .ok v.plain

/-- `not_sentinel`, `_sentinel.py:141-151`. -/
def notSentinel (v : Obj) (noneAs emptyAs : Bool) : Except Exc Bool :=
  match isSentinel v noneAs emptyAs with
  | .error e => .error e
  | .ok b => .ok (!b)

/-! ### Singletons under threads -/

/-- Where a thread is in `_SingletonMeta.__call__` for a class. Serves `stepPc` (`_sentinel.py:30-33`). -/
inductive Pc where
  | check (cls : Nat)
  | create (cls : Nat)
  | store (cls obj : Nat)
  | fetch (cls : Nat)
  deriving DecidableEq

/-- The class cache, the number of objects created so far, what threads are doing, and the results so far: class and object.
Serves `stepPc` (`_sentinel.py:30-33`). -/
structure State where
  cache : Dict Nat Nat
  next : Nat
  threads : Dict Nat Pc
  results : List (Nat × Nat)
  deriving DecidableEq

/-- What can happen next: a thread starts a call of a class (also to unpickle one of the two sentinels: `__reduce__`, `_sentinel.py:71-73, 100-102`), continues, or copies an object it has (`__copy__`, `__deepcopy__`, `_sentinel.py:41-47`). -/
inductive Act where
  | call (t cls : Nat)
  | step (t : Nat)
  | copy (cls obj : Nat)
  deriving DecidableEq

/-- One step of `_SingletonMeta.__call__`, `_sentinel.py:30-33`. -/
def stepPc (s : State) (t : Nat) : Pc → State
  | .check c => { s with threads := s.threads.set t (if c ∈ s.cache.keys then .fetch c else .create c) }
  | .create c => { s with threads := s.threads.set t (.store c s.next), next := s.next + 1 }
  | .store c o => { s with threads := s.threads.set t (.fetch c), cache := s.cache.set c o }
  | .fetch c =>
    match s.cache.get? c with
    | some o => { s with threads := s.threads.del t, results := s.results ++ [(c, o)] }
    | none => { s with threads := s.threads.del t }

/-- An action; impossible ones change nothing. Built on `Act` (`_sentinel.py:71-73, 100-102`). -/
def act (s : State) : Act → State
  | .call t c => if t ∈ s.threads.keys then s else { s with threads := s.threads.set t (.check c) }
  | .step t =>
    match s.threads.get? t with
    | some pc => stepPc s t pc
    | none => s
  | .copy c o => if (c, o) ∈ s.results then { s with results := s.results ++ [(c, o)] } else s

/-- A schedule. Built on `Act` (`_sentinel.py:71-73, 100-102`). -/
def run (s : State) (as : List Act) : State := as.foldl act s

/-- Nothing created yet (before `_sentinel.py:25-34` has run). -/
def start : State := ⟨[], 0, [], []⟩

end Verif.Sentinel
