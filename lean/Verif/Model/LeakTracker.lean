import Verif.Py.Basic
import Verif.Py.Dict

/-!
# Model of `LeakTracker` (`src/lionherd_core/libs/concurrency/_resource_tracker.py:19-65`)

Objects are numbers that stand for object identities; the memory manager gives every object an
address (`id(obj)`) that is distinct from those of all objects alive at that moment, and may
reuse the address once the object is gone.
-/

namespace Verif.Leak

/-- `LeakInfo`, `_resource_tracker.py:19-23`; the time is a number. -/
structure Info where
  name : String
  kind : Option String
  createdAt : Nat
  deriving DecidableEq

/-- What happens in the process: objects come and go, tracker methods are called. Serves `step` (`_resource_tracker.py:53-55`). -/
inductive Op where
  | create (o addr : Nat)
  | destroy (o : Nat)
  | track (o : Nat) (name kind : Option String) (time : Nat)
  | untrack (o : Nat)
  | clear
  deriving DecidableEq

/-- The process state: addresses of the objects alive, the tracker's `_live` (`_resource_tracker.py:38`) and the finalizers registered with `weakref.finalize`: object and the `key` captured by the closure (`_resource_tracker.py:45-51`). -/
structure State where
  alive : Dict Nat Nat := []
  live : Dict Nat Info := []
  fins : List (Nat × Nat) := []
  deriving DecidableEq

/-- `name or f"obj-{id(obj)}"`, `_resource_tracker.py:42`. -/
def nameFor (name : Option String) (addr : Nat) : String :=
  match name with
  | some n => if n = "" then "obj-" ++ toString addr else n
  | none => "obj-" ++ toString addr

/-- `LeakInfo(...)`, `_resource_tracker.py:42`. -/
def infoFor (name kind : Option String) (time addr : Nat) : Info := ⟨nameFor name addr, kind, time⟩

/-- Running finalizers: each pops its key (`_resource_tracker.py:45-47`). -/
def runFins (live : Dict Nat Info) (keys : List Nat) : Dict Nat Info := keys.foldl (fun l k => l.del k) live

/-- The keys of the finalizers of an object. Serves `step` (`_resource_tracker.py:53-55`). -/
def finsOf (fins : List (Nat × Nat)) (o : Nat) : List Nat := (fins.filter (fun p => p.1 = o)).map Prod.snd

/-- `track`, `_resource_tracker.py:41-51`, for an object at an address: the entry is written first (`_resource_tracker.py:49-50`); then `weakref.finalize` raises `TypeError` when the object cannot be weakly referenced (`_resource_tracker.py:51`). -/
def track (weak : Nat → Bool) (s : State) (o addr : Nat) (name kind : Option String) (time : Nat) : Res State Unit :=
  let s' := { s with live := s.live.set addr (infoFor name kind time addr) }
  if weak o then ({ s' with fins := s'.fins ++ [(o, addr)] }, .ok ()) else (s', .error .typeError)

/-- One event. Calls on objects that are not alive, and creation of an object that exists or at an address in use, cannot happen and change nothing. `untrack` is `_resource_tracker.py:53-55`, `clear` `_resource_tracker.py:61-63`. -/
def step (weak : Nat → Bool) (s : State) : Op → State
  | .create o a => if o ∈ s.alive.keys ∨ a ∈ s.alive.values then s else { s with alive := s.alive.set o a }
  | .destroy o => { alive := s.alive.del o, live := runFins s.live (finsOf s.fins o), fins := s.fins.filter (fun p => p.1 ≠ o) }
  | .track o name kind time =>
    match s.alive.get? o with
    | none => s
    | some a => (track weak s o a name kind time).1
  | .untrack o =>
    match s.alive.get? o with
    | none => s
    | some a => { s with live := s.live.del a }
  | .clear => { s with live := [] }

/-- A history. Built on `State` (`_resource_tracker.py:38`). -/
def run (weak : Nat → Bool) (h : List Op) : State := h.foldl (step weak) {}

/-- `live()`, `_resource_tracker.py:57-59`. -/
def live (s : State) : List Info := s.live.values

/-! ### The lock

`_lock` is a plain `threading.Lock` (line 39).  The garbage collector may run between any two
bytecodes of a thread, also while that thread executes the body of `with self._lock` in
`track` / `untrack` / `live` / `clear`; it then runs finalizers of cyclic garbage in that thread. -/

/-- Events of one thread at the granularity of the lock. Serves `lockStep` (`_resource_tracker.py:49, 54, 58, 62`). -/
inductive LockOp where
  | enter
  | exit
  | collect (finalizers : Nat)
  deriving DecidableEq

/-- Whether the thread holds the lock, and whether it is blocked forever. Serves `lockStep` (`_resource_tracker.py:49, 54, 58, 62`). -/
structure LockState where
  held : Bool := false
  stuck : Bool := false
  deriving DecidableEq

/-- One event: `enter` / `exit` are the ends of the `with self._lock` blocks of `_resource_tracker.py:49, 54, 58, 62`; `collect n` destroys a cycle with `n` finalizers, each of which takes the lock (`_resource_tracker.py:46`) and waits for ever if its own thread holds it. -/
def lockStep (s : LockState) : LockOp → LockState
  | .enter => if s.stuck then s else if s.held then { s with stuck := true } else { s with held := true }
  | .exit => if s.stuck then s else { s with held := false }
  | .collect n => if s.stuck then s else if s.held ∧ 0 < n then { s with stuck := true } else s

/-- A schedule. Built on `lockStep` (`_resource_tracker.py:49, 54, 58, 62`). -/
def lockRun (h : List LockOp) : LockState := h.foldl lockStep {}

end Verif.Leak
