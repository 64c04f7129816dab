import Verif.Py.Basic

/-!
# Model of `src/lionherd_core/base/broadcaster.py`

Classes and objects are natural numbers.  `owner c` is the class in whose namespace the attribute `_subscribers` of `c` is found (the first class of the
method resolution order that declares it), so classes with the same owner share one list.  A callback is an object used as such, or a bound method, which is a *fresh*
object on every attribute access and is identified by its receiver and function.  Weak references are represented by what they refer to; a `WeakMethod` is dead once its receiver or its function is collected.

A broadcast takes its list of callbacks first and then calls them one after the other; subscriptions made by callbacks are later operations of the history.
-/

namespace Verif.Broadcaster

/-- A callback as the caller passes it. Serves `Cb.needs` (`broadcaster.py:50-58`). -/
inductive Cb where
  | plain (h : Nat)
  | method (obj fn : Nat)
  deriving DecidableEq, Repr

/-- The object that `weakref.ref(callback)` in `unsubscribe` compares: the callback, or the receiver of a bound method.
Serves `unsubscribe` (`broadcaster.py:60-70`). -/
def Cb.holder : Cb → Nat
  | .plain h => h
  | .method o _ => o

/-- The objects that must stay alive (`WeakMethod.__call__` returns `None` when the receiver or the function is gone), `broadcaster.py:50-58`. -/
def Cb.needs : Cb → List Nat
  | .plain h => [h]
  | .method o f => [o, f]

/-- How a callback ends: normally, with an `Exception`, or with another `BaseException` (such as cancellation).
Serves `deliver` (`broadcaster.py:110-119`). -/
inductive Behaviour where
  | returns
  | fails
  | aborts
  deriving DecidableEq, Repr

/-- State: the subscriber lists by owning class, and the collected objects. Serves `subscribe` (`broadcaster.py:38-58`). -/
structure Hub where
  lists : Nat → List Cb := fun _ => []
  dead : List Nat := []

/-- `weak_ref() is not None`. Serves `subscribe` (`broadcaster.py:38-58`). -/
def alive (b : Hub) (c : Cb) : Bool := c.needs.all (fun h => !b.dead.contains h)

/-- `weak_ref() is callback`: a `WeakMethod` builds a new bound method on each call, never the one passed.
Serves `subscribe` (`broadcaster.py:38-58`). -/
def isSame : Cb → Cb → Bool
  | .plain a, .plain b => a == b
  | _, _ => false

/-- `item == weak_ref` in `list.remove`, for a live plain reference to `h`: identity, else the referents are compared with `==`; for a `WeakMethod` item the
comparison falls back to the one of plain weak references, which compares its receiver with `h`. Serves the model of `broadcaster.py:60-70`. -/
def refEq (b : Hub) (eqv : Nat → Nat → Bool) (item : Cb) (h : Nat) : Bool :=
  match item with
  | .plain a => a == h || (alive b (.plain a) && eqv a h)
  | .method o _ => alive b (.plain o) && (o == h || eqv o h)

/-- Write one list. Serves `subscribe` (`broadcaster.py:38-58`). -/
def setList (b : Hub) (o : Nat) (l : List Cb) : Hub := { b with lists := fun o' => if o' = o then l else b.lists o' }

/-- `subscribe`, `broadcaster.py:38-58`.  (Built-in callables whose `__self__` is a module are rejected by `WeakMethod` with `TypeError`; not modelled.) -/
def subscribe (b : Hub) (o : Nat) (cb : Cb) : Hub :=
  if (b.lists o).any (fun r => alive b r && isSame r cb) then b else setList b o (b.lists o ++ [cb])

/-- `list.remove(weak_ref)`. Serves `unsubscribe` (`broadcaster.py:60-70`). -/
def removeRef (b : Hub) (eqv : Nat → Nat → Bool) (h : Nat) : List Cb → List Cb
  | [] => []
  | r :: rs => if refEq b eqv r h then rs else r :: removeRef b eqv h rs

/-- `unsubscribe`, `broadcaster.py:60-70`. -/
def unsubscribe (b : Hub) (eqv : Nat → Nat → Bool) (o : Nat) (cb : Cb) : Hub :=
  if (b.lists o).any (fun r => alive b r && isSame r cb) then
    setList b o (removeRef b eqv cb.holder (b.lists o))
  else b

/-- `_cleanup_dead_refs`, `broadcaster.py:72-97`. -/
def cleanup (b : Hub) (o : Nat) : Hub × List Cb :=
  (setList b o ((b.lists o).filter (alive b)), (b.lists o).filter (alive b))

/-- The loop of `broadcast`, `broadcaster.py:110-119`: the callbacks called, and whether all were reached (a `BaseException` that is no `Exception` ends the loop). -/
def deliver (beh : Cb → Behaviour) : List Cb → List Cb × Bool
  | [] => ([], true)
  | c :: cs =>
    if beh c = .aborts then ([c], false) else (c :: (deliver beh cs).1, (deliver beh cs).2)

/-- Results. Serves `step` (`broadcaster.py:99-119`). -/
inductive Out where
  | unit
  | valueError
  | called (cs : List Cb) (complete : Bool)
  | count (n : Nat)
  deriving DecidableEq, Repr

/-- Operations on classes; `accepts` says whether the event is an instance of the class's `_event_type`. Serves `step` (`broadcaster.py:99-119`). -/
inductive Op where
  | subscribe (c : Nat) (cb : Cb)
  | unsubscribe (c : Nat) (cb : Cb)
  | collect (h : Nat)
  | broadcast (c : Nat) (accepts : Bool) (beh : Cb → Behaviour)
  | count (c : Nat)

/-- One operation; `owner` is the class hierarchy's attribute lookup.  A callback whose object was collected cannot be passed.
`broadcast`: `broadcaster.py:99-119`; `get_subscriber_count`: `:121-128`. -/
def step (owner : Nat → Nat) (eqv : Nat → Nat → Bool) (b : Hub) : Op → Hub × Out
  | .subscribe c cb => if alive b cb then (subscribe b (owner c) cb, .unit) else (b, .unit)
  | .unsubscribe c cb => if alive b cb then (unsubscribe b eqv (owner c) cb, .unit) else (b, .unit)
  | .collect h => ({ b with dead := h :: b.dead }, .unit)
  | .broadcast c accepts beh =>
    if accepts then
      ((cleanup b (owner c)).1, .called (deliver beh (cleanup b (owner c)).2).1 (deliver beh (cleanup b (owner c)).2).2)
    else (b, .valueError)
  | .count c => ((cleanup b (owner c)).1, .count (cleanup b (owner c)).2.length)

/-- A history and its results. Built on `step` (`broadcaster.py:99-119`). -/
def run (owner : Nat → Nat) (eqv : Nat → Nat → Bool) : Hub → List Op → Hub × List Out
  | b, [] => (b, [])
  | b, op :: ops =>
    ((run owner eqv (step owner eqv b op).1 ops).1, (step owner eqv b op).2 :: (run owner eqv (step owner eqv b op).1 ops).2)

/-! ### The singleton (`__new__`, `broadcaster.py:33-36`) -/

/-- Own value of the class attribute `_instance`: not declared, `None`, or an instance, given by the class it was made from and a serial number.
Part of the model of `broadcaster.py:33-36`. -/
inductive Attr where
  | missing
  | none_
  | inst (cls serial : Nat)
  deriving DecidableEq, Repr

/-- `cls._instance`: the first declaration along the method resolution order. Part of the model of `broadcaster.py:33-36`. -/
def lookup (own : Nat → Attr) : List Nat → Attr
  | [] => .missing
  | c :: cs => if own c = .missing then lookup own cs else own c

/-- State of the singletons: own attributes, and a counter for fresh instances. Part of the model of `broadcaster.py:33-36`. -/
structure Insts where
  own : Nat → Attr
  next : Nat := 0

/-- `cls()`.  (`missing` cannot happen: the base class declares `_instance`.) Part of the model of `broadcaster.py:33-36`. -/
def construct (mro : Nat → List Nat) (s : Insts) (c : Nat) : Insts × Attr :=
  match lookup s.own (mro c) with
  | .inst d n => (s, .inst d n)
  | _ => ({ own := fun c' => if c' = c then .inst c s.next else s.own c', next := s.next + 1 }, .inst c s.next)

/-- A sequence of constructions. Part of the model of `broadcaster.py:33-36`. -/
def constructs (mro : Nat → List Nat) : Insts → List Nat → Insts × List Attr
  | s, [] => (s, [])
  | s, c :: cs => ((constructs mro (construct mro s c).1 cs).1, (construct mro s c).2 :: (constructs mro (construct mro s c).1 cs).2)

end Verif.Broadcaster
