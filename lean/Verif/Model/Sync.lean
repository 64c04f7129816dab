import Verif.Py.Basic

/-!
# Model of `@synchronized` methods run by several threads

`src/lionherd_core/base/_utils.py:30-51` (`synchronized`), the re-entrant locks of `pile.py:69`, `graph.py:118` and
`flow.py:48` (`threading.RLock`).

A method body is a tree of atomic steps on the shared object; what it does next may depend on what it has read.  How the
body is cut into atomic steps is left open: the theorems hold for every way to do it.  An exception leaves the `with` block like a
normal return, so results include exceptions (`α`).  Simplification: a thread that waits for a lock does not move; which waiting thread gets a
free lock is decided by the schedule.
-/

namespace Verif.Sync

/-- A method body: return, one atomic step (the new state and, from the old state, the rest), entering and leaving
`with lock_l:`. Serves `withLock` (`_utils.py:48-49`). -/
inductive Prog (σ α : Type) where
  | ret (a : α)
  | atomic (f : σ → σ) (k : σ → Prog σ α)
  | acquire (l : Nat) (k : Prog σ α)
  | release (l : Nat) (k : Prog σ α)

variable {σ α β : Type}

/-- Sequencing. Serves `withLock` (`_utils.py:48-49`). -/
def Prog.bind : Prog σ α → (α → Prog σ β) → Prog σ β
  | .ret a, k => k a
  | .atomic f j, k => .atomic f (fun s => (j s).bind k)
  | .acquire l p, k => .acquire l (p.bind k)
  | .release l p, k => .release l (p.bind k)

/-- The end of a `with` block. Serves `withLock` (`_utils.py:48-49`). -/
def leave (l : Nat) (a : α) : Prog σ α := .release l (.ret a)

/-- `with lock_l: return body`, `_utils.py:48-49`. -/
def withLock (l : Nat) (p : Prog σ α) : Prog σ α := .acquire l (p.bind (leave l))

/-- What a body does when nothing else runs. Part of the model of `src/lionherd_core/base/_utils.py:30-51`. -/
def exec : Prog σ α → σ → σ × α
  | .ret a, s => (s, a)
  | .atomic f k, s => exec (k s) (f s)
  | .acquire _ k, s => exec k s
  | .release _ k, s => exec k s

/-- A thread: the call it is in, the calls it will make, the results it has got. Part of the model of `src/lionherd_core/base/_utils.py:30-51`. -/
structure Thread (σ α : Type) where
  cur : Option (Prog σ α)
  todo : List (Prog σ α)
  out : List α

/-- The shared object, the locks (owner and depth of a held `RLock`) and the threads.
Part of the model of `src/lionherd_core/base/_utils.py:30-51`. -/
structure State (σ α : Type) where
  shared : σ
  locks : Nat → Option (Nat × Nat)
  threads : Nat → Thread σ α

/-- Replace one thread. Part of the model of `src/lionherd_core/base/_utils.py:30-51`. -/
def State.setThread (m : State σ α) (t : Nat) (th : Thread σ α) : State σ α :=
  { m with threads := fun t' => if t' = t then th else m.threads t' }

/-- Replace one lock. Part of the model of `src/lionherd_core/base/_utils.py:30-51`. -/
def State.setLock (m : State σ α) (l : Nat) (v : Option (Nat × Nat)) : State σ α :=
  { m with locks := fun l' => if l' = l then v else m.locks l' }

/-- `RLock.acquire` by thread `t`: the new lock state, or `none` if `t` has to wait. Part of the model of `src/lionherd_core/base/_utils.py:30-51`. -/
def take (t : Nat) : Option (Nat × Nat) → Option (Nat × Nat)
  | none => some (t, 1)
  | some (o, n) => if o = t then some (t, n + 1) else none

/-- `RLock.release` by thread `t` (by a thread that does not own the lock it raises; `with` never does that).
Part of the model of `src/lionherd_core/base/_utils.py:30-51`. -/
def drop (t : Nat) : Option (Nat × Nat) → Option (Nat × Nat)
  | none => none
  | some (o, n) => if o = t then (if n ≤ 1 then none else some (o, n - 1)) else some (o, n)

/-- The thread continues with `p`. Part of the model of `src/lionherd_core/base/_utils.py:30-51`. -/
def Thread.goto (th : Thread σ α) (p : Prog σ α) : Thread σ α := { th with cur := some p }

/-- One step of a thread inside a call. Part of the model of `src/lionherd_core/base/_utils.py:30-51`. -/
def stepProg (m : State σ α) (t : Nat) : Prog σ α → State σ α
  | .ret a => m.setThread t { m.threads t with cur := none, out := (m.threads t).out ++ [a] }
  | .atomic f k => { m with shared := f m.shared }.setThread t ((m.threads t).goto (k m.shared))
  | .acquire l k =>
    match take t (m.locks l) with
    | none => m
    | some v => (m.setLock l (some v)).setThread t ((m.threads t).goto k)
  | .release l k => (m.setLock l (drop t (m.locks l))).setThread t ((m.threads t).goto k)

/-- The next call of a thread between calls. Part of the model of `src/lionherd_core/base/_utils.py:30-51`. -/
def startNext (m : State σ α) (t : Nat) : List (Prog σ α) → State σ α
  | [] => m
  | c :: cs => m.setThread t { m.threads t with cur := some c, todo := cs }

/-- One step of thread `t`. Part of the model of `src/lionherd_core/base/_utils.py:30-51`. -/
def step (m : State σ α) (t : Nat) : State σ α :=
  match (m.threads t).cur with
  | none => startNext m t (m.threads t).todo
  | some p => stepProg m t p

/-- Nothing started, no lock held. Part of the model of `src/lionherd_core/base/_utils.py:30-51`. -/
def init (s0 : σ) (calls : Nat → List (Prog σ α)) : State σ α := ⟨s0, fun _ => none, fun t => ⟨none, calls t, []⟩⟩

/-- The state after a schedule: which thread moves next. Part of the model of `src/lionherd_core/base/_utils.py:30-51`. -/
def run (m : State σ α) (sched : List Nat) : State σ α := sched.foldl step m

end Verif.Sync
