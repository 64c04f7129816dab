/-!
# Lazily initialised module tables under threads

`to_list` (`src/lionherd_core/ln/_to_list.py:54-67`), `hash_dict` (`src/lionherd_core/ln/_hash.py:121-126`) and `alcall`
(`src/lionherd_core/ln/_async_call.py:96-104`) fill module-level tables in their first call and then set `_INITIALIZED`.
Any number of threads; every read or write of a module global is one step (a thread may be interrupted between any two of them).
The values written are always the same, so a table is only unset or set.  The `import` statements in between are not modelled.
-/

namespace Verif.LazyInit

/-- `tables`: number of globals filled, in this order; each may read the ones before it (`_to_list.py:62-66`: five; `_hash.py:125` and `_async_call.py:103`: one).
`locked`: the filling is done under `_INIT_LOCK` after a second look at `_INITIALIZED` (`_async_call.py:98-100`). Serves `step` (`_to_list.py:54-67`). -/
structure Cfg where
  tables : Nat
  locked : Bool

/-- Where a thread is: before the test of `_INITIALIZED`; waiting for the lock; at the second test; about to fill table `k`; about to release the lock;
in the rest of the function, which reads the tables; at its end; failed because a table it read was still `None`. Serves `step` (`_to_list.py:54-67`). -/
inductive PC where
  | test
  | lock
  | test2
  | fill (k : Nat)
  | release
  | body
  | done
  | failed
  deriving DecidableEq, Repr

/-- `flag`: `_INITIALIZED`; `ready k`: table `k` is set; `owner`: the thread holding the lock; `pc`: the threads; `fills k`: how often table `k` was assigned.
Serves `step` (`_to_list.py:54-67`). -/
structure Sys where
  flag : Bool := false
  ready : Nat → Bool := fun _ => false
  owner : Option Nat := none
  pc : Nat → PC := fun _ => .test
  fills : Nat → Nat := fun _ => 0

/-- Changing a function at one place. Serves `step` (`_to_list.py:54-67`). -/
def upd {α : Type} (f : Nat → α) (i : Nat) (v : α) : Nat → α := fun j => if j = i then v else f j

/-- The first `k` tables are set. Serves `step` (`_to_list.py:54-67`). -/
def readyTo (s : Sys) (k : Nat) : Bool := (List.range k).all s.ready

/-- The thread `t` goes to `p`. Serves `step` (`_to_list.py:54-67`). -/
def goto (s : Sys) (t : Nat) (p : PC) : Sys := { s with pc := upd s.pc t p }

/-- Filling table `k`, which reads the tables before it, `_to_list.py:62-66`. -/
def fill (s : Sys) (t k : Nat) : Sys :=
  if readyTo s k then { s with ready := upd s.ready k true, fills := upd s.fills k (s.fills k + 1), pc := upd s.pc t (.fill (k + 1)) }
  else goto s t .failed

/-- After the last table `_INITIALIZED = True`, `_to_list.py:67`, `_hash.py:126`, `_async_call.py:104`. -/
def setFlag (c : Cfg) (s : Sys) (t : Nat) : Sys := { s with flag := true, pc := upd s.pc t (if c.locked then .release else .body) }

/-- The next step of thread `t`, `_to_list.py:54-67`, `_hash.py:121-126`, `_async_call.py:96-104`. -/
def step (c : Cfg) (s : Sys) (t : Nat) : Sys :=
  match s.pc t with
  | .test => if s.flag then goto s t .body else if c.locked then goto s t .lock else goto s t (.fill 0)
  | .lock => if s.owner = none then { s with owner := some t, pc := upd s.pc t .test2 } else s
  | .test2 => if s.flag then goto s t .release else goto s t (.fill 0)
  | .fill k => if k < c.tables then fill s t k else setFlag c s t
  | .release => { s with owner := none, pc := upd s.pc t .body }
  | .body => if readyTo s c.tables then goto s t .done else goto s t .failed
  | .done => s
  | .failed => s

/-- A schedule: which thread takes the next step. Built on `step` (`_to_list.py:54-67`). -/
def run (c : Cfg) (ts : List Nat) : Sys := ts.foldl (step c) {}

end Verif.LazyInit
