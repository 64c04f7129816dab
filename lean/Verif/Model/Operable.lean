import Verif.Py.Basic

/-!
# Model of `src/lionherd_core/types/operable.py`

Specs are any type `σ` with decidable equality and a name (`none` is the sentinel `Undefined` returned by `Spec.name` when there is no name).  The `TypeError` for items that are not specs is not modelled.
Sets given as `include`/`exclude` are lists in their iteration order.
-/

namespace Verif.Operable

variable {σ ν : Type} [DecidableEq σ] [DecidableEq ν]

/-- Are there two equal elements?  (`len(names) != len(set(names))`.) Serves `make` (`operable.py:27-59`). -/
def hasDup : List (Option ν) → Bool
  | [] => false
  | x :: xs => decide (x ∈ xs) || hasDup xs

/-- `Operable(specs)`, `operable.py:27-59`: the names (unnamed specs all have the name `Undefined`) must be pairwise different. -/
def make (name : σ → Option ν) (specs : List σ) : Except Exc (List σ) :=
  if hasDup (specs.map name) then .error .valueError else .ok specs

/-- `check_allowed(*args, as_boolean=True)`, `operable.py:65-73`. -/
def checkAllowed (name : σ → Option ν) (specs : List σ) (args : List ν) : Bool :=
  args.all (fun a => decide (some a ∈ specs.map name))

/-- The loop of `get`, `operable.py:79-81`. -/
def findName (name : σ → Option ν) (key : ν) : List σ → Option σ
  | [] => none
  | s :: ss => if name s = some key then some s else findName name key ss

/-- `get(key)`, `operable.py:75-81`: `none` is the default `Unset`. -/
def get (name : σ → Option ν) (specs : List σ) (key : ν) : Option σ :=
  if checkAllowed name specs [key] then findName name key specs else none

/-- `get_specs(include=..., exclude=...)`, `operable.py:83-105`; empty sets are falsy, as are absent ones. -/
def getSpecs (name : σ → Option ν) (specs : List σ) (incl excl : Option (List ν)) : Except Exc (List σ) :=
  if incl.isSome ∧ excl.isSome then .error .valueError
  else if incl.getD [] ≠ [] then
    if checkAllowed name specs (incl.getD []) then .ok ((incl.getD []).filterMap (get name specs)) else .error .valueError
  else if excl.getD [] ≠ [] then
    .ok (specs.filter (fun s => decide (s ∉ (excl.getD []).filterMap (get name specs))))
  else .ok specs

end Verif.Operable
