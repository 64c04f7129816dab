import Verif.Py.Basic

/-! # Broadcasts that overlap with subscriptions, unsubscriptions and other broadcasts

Callbacks run inside `broadcast` and may subscribe, unsubscribe and broadcast themselves; while a broadcast awaits a callback, other tasks do the same.
Simplifications: one broadcaster class (the lists of different classes are separate, C38), callbacks are functions compared by identity (bound methods: C98, C270),
what a callback returns or raises as an `Exception` does not matter (it is awaited or logged). -/

namespace Verif.BroadcastConc

/-- A running or finished call of `broadcast`: the callbacks it has resolved, how many of them it has called, and whether it still runs.
Part of the model of `src/lionherd_core/base/broadcaster.py:98-119`. -/
structure Task where
  callbacks : List Nat
  next : Nat := 0
  running : Bool := true
  deriving DecidableEq, Repr

/-- What an observer sees. Part of the model of `src/lionherd_core/base/broadcaster.py:98-119`. -/
inductive Ev where
  | called (t h : Nat)
  | returned (t : Nat)
  | aborted (t : Nat)
  | refused
  deriving DecidableEq, Repr

/-- The class-level list of weak references, the callbacks nobody outside refers to any more, the calls of `broadcast`, and what has happened.
Part of the model of `src/lionherd_core/base/broadcaster.py:28-119`. -/
structure St where
  subs : List Nat := []
  gone : List Nat := []
  tasks : List Task := []
  log : List Ev := []

/-- A running broadcast holds strong references to its callbacks (the local list `callbacks`, `broadcaster.py:107`). -/
def Task.holds (h : Nat) (k : Task) : Bool := k.running && decide (h ∈ k.callbacks)

/-- `weak_ref() is not None`: somebody outside or a running broadcast refers to the callback; serves `broadcaster.py:88-91`. -/
def alive (s : St) (h : Nat) : Bool := !decide (h ∈ s.gone) || s.tasks.any (Task.holds h)

/-- `_cleanup_dead_refs`, `broadcaster.py:71-96`: the live callbacks; the list keeps these only. -/
def live (s : St) : List Nat := s.subs.filter (alive s)

/-- What can happen next, in any order: a call of a class method, the last outside reference to a callback goes, a broadcast goes on with its next callback
(or returns), or a callback ends its broadcast by an exception that is no `Exception` (cancellation). Part of the model of
`src/lionherd_core/base/broadcaster.py:38-119`. -/
inductive Act where
  | subscribe (h : Nat)
  | unsubscribe (h : Nat)
  | drop (h : Nat)
  | broadcast (accepted : Bool)
  | turn (t : Nat)
  | abort (t : Nat)
  deriving DecidableEq, Repr

/-- The turn of a broadcast: the next callback is called (`broadcaster.py:110-119`), or there is none left and the call returns. -/
def advance (t : Nat) (k : Task) (s : St) : St :=
  match k.callbacks[k.next]? with
  | some h => { s with tasks := s.tasks.set t { k with next := k.next + 1 }, log := s.log ++ [.called t h] }
  | none => { s with tasks := s.tasks.set t { k with running := false }, log := s.log ++ [.returned t] }

/-- The turn of call number `t`, if it is running. Serves `step` (`broadcaster.py:110-119`). -/
def turn (t : Nat) (s : St) : St :=
  match s.tasks[t]? with
  | none => s
  | some k => if k.running then advance t k s else s

/-- A callback of call number `t` that has been called and not ended raises an exception that is no `Exception`; serves `broadcaster.py:118`. -/
def abort (t : Nat) (s : St) : St :=
  match s.tasks[t]? with
  | none => s
  | some k => if k.running && decide (0 < k.next) then { s with tasks := s.tasks.set t { k with running := false }, log := s.log ++ [.aborted t] } else s

/-- `subscribe`, `broadcaster.py:38-58`; nobody can pass a callback that no longer exists. -/
def subscribe (h : Nat) (s : St) : St :=
  if alive s h && !decide (h ∈ s.subs) then { s with subs := s.subs ++ [h] } else s

/-- `unsubscribe`, `broadcaster.py:60-69`; nobody can pass a callback that no longer exists. -/
def unsubscribe (h : Nat) (s : St) : St :=
  if alive s h then { s with subs := s.subs.erase h } else s

/-- The start of `broadcast`, `broadcaster.py:104-107`. -/
def start (accepted : Bool) (s : St) : St :=
  if accepted then { s with subs := live s, tasks := s.tasks ++ [{ callbacks := live s }] }
  else { s with log := s.log ++ [.refused] }

/-- One step. Part of the model of `src/lionherd_core/base/broadcaster.py:38-119`. -/
def step (s : St) : Act → St
  | .subscribe h => subscribe h s
  | .unsubscribe h => unsubscribe h s
  | .drop h => { s with gone := h :: s.gone }
  | .broadcast ok => start ok s
  | .turn t => turn t s
  | .abort t => abort t s

/-- A history. Part of the model of `src/lionherd_core/base/broadcaster.py:38-119`. -/
def run (s : St) (as : List Act) : St := as.foldl step s

end Verif.BroadcastConc
