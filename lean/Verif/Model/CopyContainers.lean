import Verif.Model.ParamCall

/-!
# Model of `with_updates(copy_containers=...)`

`Params.with_updates` and `DataClass.with_updates` (`src/lionherd_core/types/base.py:149-188` and `250-289`), with the identities of mutable
objects.  Values are finite trees; a value that contains itself is not modelled.
-/

namespace Verif.CopyContainers

open Verif.Params

/-- Mutable objects: an instance of MutableSequence, MutableMapping or MutableSet that has a method `copy`; one without (the abstract base
classes do not provide it); any other mutable object. Serves the model of `base.py:170-174`. -/
inductive Kind where
  | container
  | noCopy
  | object
  deriving DecidableEq, Repr

/-- Values: atoms; immutable collections (tuples, frozensets); mutable objects with their identity.  `nil` and `cons` list what a collection
or object holds (of a dict: keys and values in turn). Serves `shallowValue` (`base.py:170-174`). -/
inductive Val (α : Type) where
  | atom (a : α)
  | imm (items : Val α)
  | box (k : Kind) (id : Nat) (items : Val α)
  | nil
  | cons (x : Val α) (rest : Val α)
  deriving DecidableEq, Repr

variable {α φ : Type} [DecidableEq φ]

/-- `copy.deepcopy(v)` (library): every mutable object inside is replaced by a new one, `new i` for `i`, once per call (memo).  Simplified:
classes with their own `__deepcopy__` are not modelled. Serves `deepValue` (`base.py:180-184`). -/
def deepcopy (new : Nat → Nat) : Val α → Val α
  | .atom a => .atom a
  | .imm items => .imm (deepcopy new items)
  | .box k i items => .box k (new i) (deepcopy new items)
  | .nil => .nil
  | .cons x r => .cons (deepcopy new x) (deepcopy new r)

/-- The argument `copy_containers`. Serves `copyItems` (`base.py:169-174`). -/
inductive Mode where
  | none
  | shallow
  | deep
  | other
  deriving DecidableEq, Repr

/-- `v.copy()` if `v` is a mutable container, `base.py:170-174`. -/
def shallowValue (new : Nat → Nat) : Val α → Except Exc (Val α)
  | .box .container i items => .ok (.box .container (new i) items)
  | .box .noCopy _ _ => .error .attributeError
  | v => .ok v

/-- `copy.deepcopy(v)` if `v` is a mutable container, `base.py:180-184`. -/
def deepValue (new : Nat → Nat) : Val α → Val α
  | .box .container i items => deepcopy new (.box .container i items)
  | .box .noCopy i items => deepcopy new (.box .noCopy i items)
  | v => v

/-- The body of the loop for one entry. Serves `copyItems` (`base.py:169-174`). -/
def copyValue (m : Mode) (new : Nat → Nat) (v : Val α) : Except Exc (Val α) :=
  match m with
  | .shallow => shallowValue new v
  | .deep => .ok (deepValue new v)
  | _ => .ok v

/-- The loop over `dict_`, `base.py:169-174` and `179-184`; `new k i` is the object made when the field `k` is copied and the object `i` is met. -/
def copyItems (m : Mode) (new : φ → Nat → Nat) (kw : Dict φ (Val α)) : Dict φ (Val α) → Except Exc (Dict φ (Val α))
  | [] => .ok []
  | (k, v) :: d =>
    if k ∈ kw.keys then
      match copyItems m new kw d with
      | .error e => .error e
      | .ok d' => .ok ((k, v) :: d')
    else
      match copyValue m (new k) v with
      | .error e => .error e
      | .ok w =>
        match copyItems m new kw d with
        | .error e => .error e
        | .ok d' => .ok ((k, w) :: d')

/-- `with_updates`, `base.py:149-188`: `d` is `to_dict()`, `build` the constructor. -/
def updated (build : Dict φ (Val α) → Except Exc (Attrs φ (Val α))) (m : Mode) (new : φ → Nat → Nat) (d kw : Dict φ (Val α)) :
    Except Exc (Attrs φ (Val α)) :=
  if m = .other then .error .valueError
  else
    match copyItems m new kw d with
    | .error e => .error e
    | .ok d' => build (d'.update kw)

/-- `Params.with_updates`, `base.py:149-188`. -/
def withUpdates (cfg : Cfg (Val α)) (keys : List φ) (m : Mode) (new : φ → Nat → Nat) (a : Attrs φ (Val α)) (kw : Dict φ (Val α)) :
    Except Exc (Attrs φ (Val α)) := updated (init cfg keys) m new (toDict cfg keys a) kw

/-- `DataClass.with_updates`, `base.py:250-289`. -/
def dcWithUpdates (cfg : Cfg (Val α)) (c : ParamCall.Decl (Val α)) (m : Mode) (new : String → Nat → Nat) (a : Attrs String (Val α))
    (kw : Dict String (Val α)) : Except Exc (Attrs String (Val α)) := updated (ParamCall.dcInit cfg c) m new (toDict cfg c.names a) kw

end Verif.CopyContainers
