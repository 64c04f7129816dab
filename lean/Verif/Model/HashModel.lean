import Verif.Py.Basic
import Verif.Model.HashDict

/-!
# `HashableModel` (`src/lionherd_core/types/model.py`)

The fields of a model are a chain of dict entries (`HashDict.Data`); field values are nested data, possibly with models inside.
Pydantic's part is stated where it enters: `model_dump`, `model_validate` and `__eq__`.
-/

namespace Verif.HashModel

open Verif.HashDict

variable {α β σ γ : Type}

/-- What is asked of atoms here: is it `Undefined`/`Unset`; is it (as a set element) a model; its text if it is a string (a JSON object key);
its JSON form, if it has one. Serves `dropSent` (`model.py:63`). -/
structure Atoms (α σ γ : Type) where
  sent : α → Bool
  isModel : α → Bool
  key : α → Option σ
  json : α → Option γ

/-- `model_dump()` in python mode on field values: models become dicts, containers are copied; a set with a model in it cannot be dumped (the resulting dict is unhashable, `TypeError`).
Serves `toDictPy` (`model.py:60-63`). -/
def dump (A : Atoms α σ γ) : Data α → Option (Data α)
  | .atom a => some (.atom a)
  | .coll .model s => (dump A s).map (.coll .dict)
  | .coll c s => (dump A s).map (.coll c)
  | .nil => some .nil
  | .lcons h t => (dump A h).bind (fun h' => (dump A t).map (.lcons h'))
  | .dcons k v t => (dump A v).bind (fun v' => (dump A t).map (.dcons k v'))
  | .scons a t => if A.isModel a then none else (dump A t).map (.scons a)

/-- `include` and `exclude` of `model_dump`. Serves `toDictPy` (`model.py:60-63`). -/
structure Select (α : Type) where
  incl : Option (List α) := none
  excl : List α := []

/-- Is the field selected?. Serves the model of `model.py:60-63`. -/
def Select.has [DecidableEq α] (sel : Select α) (k : α) : Bool :=
  (match sel.incl with
    | none => true
    | some l => decide (k ∈ l)) && !decide (k ∈ sel.excl)

/-- The selected fields. Serves `toDictPy` (`model.py:60-63`). -/
def select [DecidableEq α] (sel : Select α) : Data α → Data α
  | .dcons k v t => if sel.has k then .dcons k v (select sel t) else select sel t
  | x => x

/-- Is the value a sentinel?. Serves `dropSent` (`model.py:63`). -/
def isSent (A : Atoms α σ γ) : Data α → Bool
  | .atom a => A.sent a
  | _ => false

/-- `{k: v for k, v in dict_.items() if not_sentinel(v)}`, `model.py:63`. -/
def dropSent (A : Atoms α σ γ) : Data α → Data α
  | .dcons k v t => if isSent A v then dropSent A t else .dcons k v (dropSent A t)
  | x => x

/-- `_to_dict`, `model.py:60-63`. -/
def toDictPy [DecidableEq α] (A : Atoms α σ γ) (sel : Select α) (fields : Data α) : Except Exc (Data α) :=
  match dump A (select sel fields) with
  | some d => .ok (dropSent A d)
  | none => .error .typeError

/-- The elements of a set written as a JSON array, in iteration order (`set: list`, `_json_dump.py:69-70`). -/
def atomsJson (A : Atoms α σ γ) : List α → Option (Rep γ σ)
  | [] => some .nil
  | a :: l => (A.json a).bind (fun j => (atomsJson A l).map (.cons (.leaf j)))

/-- `orjson.dumps` with `OPT_SORT_KEYS` and the default function of `model.py:150-159`: a JSON tree, 0 marking objects and 1 arrays; a value without JSON form or a key that is no string raises `TypeError`. -/
def toJson (A : Atoms α σ γ) (le : σ → σ → Bool) : Data α → Option (Rep γ σ)
  | .atom a => (A.json a).map .leaf
  | .coll .dict s => (toJson A le s).map (.node 0)
  | .coll .model s => (toJson A le s).map (.node 0)
  | .coll .list s => (toJson A le s).map (.node 1)
  | .coll .tuple s => (toJson A le s).map (.node 1)
  | .coll .set s => (atomsJson A (elems s)).map (.node 1)
  | .coll .frozenset s => (atomsJson A (elems s)).map (.node 1)
  | .nil => some .nil
  | .lcons h t => (toJson A le h).bind (fun h' => (toJson A le t).map (.cons h'))
  | .dcons k v t => (A.key k).bind (fun k' => (toJson A le v).bind (fun v' => (toJson A le t).map (insertKey le k' v')))
  | .scons _ t => toJson A le t

/-- `to_json`, `model.py:107-129`. -/
def modelJson [DecidableEq α] (A : Atoms α σ γ) (le : σ → σ → Bool) (sel : Select α) (fields : Data α) : Except Exc (Rep γ σ) :=
  match toDictPy A sel fields with
  | .error e => .error e
  | .ok d =>
    match toJson A le (.coll .dict d) with
    | some j => .ok j
    | none => .error .typeError

/-- What `orjson.loads` makes of JSON scalars and object keys. Serves `toDict` (`model.py:65-78`). -/
structure Loads (α σ γ : Type) where
  leaf : γ → α
  key : σ → α

/-- `orjson.loads`. Serves `toDict` (`model.py:65-78`). -/
def loads (L : Loads α σ γ) : Rep γ σ → Data α
  | .leaf j => .atom (L.leaf j)
  | .node m s => .coll (if m = 0 then .dict else .list) (loads L s)
  | .nil => .nil
  | .cons h t => .lcons (loads L h) (loads L t)
  | .kcons k v t => .dcons (L.key k) (loads L v) (loads L t)

/-- The modes of `to_dict`. Serves `toDict` (`model.py:65-78`). -/
inductive Mode where
  | python | json | other
  deriving DecidableEq

/-- `to_dict`, `model.py:65-78`: in json mode the keyword arguments are not passed on. -/
def toDict [DecidableEq α] (A : Atoms α σ γ) (L : Loads α σ γ) (le : σ → σ → Bool) (mode : Mode) (sel : Select α) (fields : Data α) : Except Exc (Data α) :=
  match mode with
  | .python => (toDictPy A sel fields).map (.coll .dict)
  | .json => (modelJson A le {} fields).map (loads L)
  | .other => .error .valueError

/-- `__hash__`, `model.py:145-147`. -/
def hashModel [DecidableEq α] (A : Atoms α σ γ) (O : Ops α β σ) (hash : Rep β σ → Int) (fields : Data α) : Except Exc Int :=
  match toDictPy A {} fields with
  | .error e => .error e
  | .ok d => .ok (hashDict O hash (.coll .dict d))

/-- Looks up an entry in a chain. Serves the model of `model.py:81-105`. -/
def lookup [DecidableEq α] (k : α) : Data α → Option (Data α)
  | .dcons k' v t => if k' = k then some v else lookup k t
  | _ => none

/-- A class: its fields with defaults, and validation of a given value for a field. Serves `fromDict` (`model.py:81-105`). -/
structure Class (α : Type) where
  fields : List (α × Option (Data α))
  validate : α → Data α → Option (Data α)

/-- One field in `model_validate`: the validated value given, else the default, else an error. Serves the model of `model.py:81-105`. -/
def fieldValue [DecidableEq α] (C : Class α) (d : Data α) (f : α × Option (Data α)) : Option (Data α) :=
  match lookup f.1 d with
  | some v => C.validate f.1 v
  | none => f.2

/-- `model_validate` on a dict (with `extra="forbid"`): the fields in declaration order. Serves `fromDict` (`model.py:81-105`). -/
def validateFields [DecidableEq α] (C : Class α) (d : Data α) : List (α × Option (Data α)) → Option (Data α)
  | [] => some .nil
  | f :: fs => (fieldValue C d f).bind (fun v => (validateFields C d fs).map (.dcons f.1 v))

/-- Are all keys declared?. Serves `fromDict` (`model.py:81-105`). -/
def keysIn [DecidableEq α] (ks : List α) : Data α → Bool
  | .dcons k _ t => decide (k ∈ ks) && keysIn ks t
  | _ => true

/-- `from_dict` in python mode, `model.py:81-105`. -/
def fromDict [DecidableEq α] (C : Class α) : Data α → Except Exc (Data α)
  | .coll .dict d =>
    if keysIn (C.fields.map Prod.fst) d then
      match validateFields C d C.fields with
      | some r => .ok r
      | none => .error .validation
    else .error .validation
  | _ => .error .validation

/-- `from_json`, `model.py:131-143` with `from_dict`, `model.py:97-105`, of a JSON text standing for the tree `j`: in json mode (the default) the text is read and validated; in python mode the text itself is validated, which a model
class refuses. -/
def fromJson [DecidableEq α] (C : Class α) (L : Loads α σ γ) (mode : Mode) (j : Rep γ σ) : Except Exc (Data α) :=
  match mode with
  | .python => .error .validation
  | .json => fromDict C (loads L j)
  | .other => .error .valueError

end Verif.HashModel
