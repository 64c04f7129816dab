import Verif.Model.Parser

/-!
# Model of `has_action_calls`, `ensure_no_action_calls` and `revalidate_with_action_results` (`src/lionherd_core/lndl/types.py:149-312`)

Python values as far as these functions distinguish them.  Pydantic's `model_dump` is modelled (nested models become dictionaries, `ActionCall` objects, being dataclasses, become dictionaries too, fields declared with
`exclude=True` are left out); `model_validate` is a parameter.
-/

namespace Verif.LndlTypes

open Verif.Parser (Str)

/-- Python values.  The items of a collection are chained by `cons` and end with `nil`; each has a key (the field name, the dictionary key, or the position).
Serves `check` (`types.py:149-191`). -/
inductive Val where
  | atom (s : Str)                                   -- anything that is not searched
  | action (name : Str)                              -- ActionCall
  | model (cls : Nat) (fields extra : Val)           -- BaseModel: `__dict__` and `__pydantic_extra__`
  | seq (items : Val)                                -- list, tuple, set
  | map (items : Val)                                -- dict
  | nil
  | cons (key : Str) (head tail : Val)
  deriving DecidableEq, Repr

/-- `_check_value` and the loop of `has_action_calls`, `types.py:149-191`: only `__dict__` of models is searched. -/
def check : Val → Bool
  | .atom _ => false
  | .action _ => true
  | .model _ fs _ => check fs
  | .seq l => check l
  | .map l => check l
  | .nil => false
  | .cons _ h t => check h || check t

/-- `has_action_calls(model)` for a model with these fields. Serves `ensure` (`types.py:194-264`). -/
def hasActionCalls (fields : Val) : Bool := check fields

/-- `_find_action_call_fields`, `types.py:226-249`; a path is the list of keys (outermost first). -/
def findPaths (path : List Str) : Val → List (List Str)
  | .atom _ => []
  | .action _ => [path]
  | .model _ fs _ => findPaths path fs
  | .seq l => findPaths path l
  | .map l => findPaths path l
  | .nil => []
  | .cons k h t => findPaths (path ++ [k]) h ++ findPaths path t

/-- `ensure_no_action_calls`, `types.py:194-264`: the error carries the paths. -/
def ensure (cls : Nat) (fields extra : Val) : Except (List (List Str)) Val :=
  if hasActionCalls fields then .error (findPaths [] fields) else .ok (.model cls fields extra)

/-- Append the items of two collections. Serves the model of `types.py:267-312`. -/
def app : Val → Val → Val
  | .cons k h t, r => .cons k h (app t r)
  | _, r => r

/-- `model_dump()` of a value; `ex` tells which fields of the enclosing model are excluded.  An `ActionCall` becomes a dictionary describing it.
Serves the model of `types.py:267-312`. -/
def dump (excluded : Nat → Str → Bool) : (Str → Bool) → Val → Val
  | _, .atom s => .atom s
  | _, .action n => .map (.cons "name".toList (.atom n) .nil)
  | _, .model c fs e => .map (app (dump excluded (excluded c) fs) (dump excluded (fun _ => false) e))
  | _, .seq l => .seq (dump excluded (fun _ => false) l)
  | _, .map l => .map (dump excluded (fun _ => false) l)
  | _, .nil => .nil
  | ex, .cons k h t => if ex k then dump excluded ex t else .cons k (dump excluded (fun _ => false) h) (dump excluded ex t)

/-- `kwargs[k] = v`. Serves `substTop` (`types.py:299-309`). -/
def setItem (k : Str) (v : Val) : Val → Val
  | .cons k' h t => if k' = k then .cons k' v t else .cons k' h (setItem k v t)
  | _ => .cons k v .nil

/-- `kwargs.get(k)`. Part of the model of `src/lionherd_core/lndl/types.py:149-312`. -/
def getItem (k : Str) : Val → Option Val
  | .cons k' h t => if k' = k then some h else getItem k t
  | _ => none

/-- Is the value an `ActionCall`?  Its name. Serves `substTop` (`types.py:299-309`). -/
def actionName : Val → Option Str
  | .action n => some n
  | _ => none

/-- The loop of `revalidate_with_action_results`, `types.py:299-309`. -/
def substTop (results : Str → Option Val) : Val → Val → Except Unit Val
  | .cons k h t, kw =>
    match actionName h with
    | none => substTop results t kw
    | some n =>
      match results n with
      | none => .error ()
      | some r => substTop results t (setItem k r kw)
  | _, kw => .ok kw

/-- `model.model_dump()` at the top. Serves `revalidate` (`types.py:267-312`). -/
def dumpTop (excluded : Nat → Str → Bool) (cls : Nat) (fields extra : Val) : Val := app (dump excluded (excluded cls) fields) (dump excluded (fun _ => false) extra)

/-- `revalidate_with_action_results`, `types.py:267-312`.  `validate` is `type(model).model_validate`; `none` is a `ValidationError`. -/
def revalidate (excluded : Nat → Str → Bool) (validate : Nat → Val → Option Val) (results : Str → Option Val) (cls : Nat) (fields extra : Val) : Except Unit Val :=
  match substTop results fields (dumpTop excluded cls fields extra) with
  | .error e => .error e
  | .ok kw =>
    match validate cls kw with
    | none => .error ()
    | some m => .ok m

end Verif.LndlTypes
