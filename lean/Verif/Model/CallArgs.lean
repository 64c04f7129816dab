import Verif.Py.Dict
import Verif.Py.Basic

/-!
# Model of `src/lionherd_core/libs/schema_handlers/_function_call_parser.py`

Python's parser (`ast`) is not modelled: a call is given by its positional values and its keywords in order.
-/

namespace Verif.CallArgs

/-- Argument keys: the generated `_pos_0`, `_pos_1`, ... and other names.  A keyword that is itself spelled `_pos_i` is the key `pos i`.
Serves `posArgs` (`_function_call_parser.py:31-33`). -/
inductive Key (κ : Type) where
  | pos (i : Nat)
  | name (k : κ)
  deriving DecidableEq, Repr

variable {κ ν : Type} [DecidableEq κ]

/-- A parsed call: positional values, and keywords (`none`: `**kwargs`). Serves `parseArgs` (`_function_call_parser.py:10-47`). -/
structure Call (κ ν : Type) where
  args : List ν
  keywords : List (Option (Key κ) × ν)

/-- The loop over positional arguments, `_function_call_parser.py:31-33`. -/
def posArgs : Nat → List ν → Dict (Key κ) ν → Dict (Key κ) ν
  | _, [], d => d
  | i, v :: vs, d => posArgs (i + 1) vs (d.set (.pos i) v)

/-- The loop over keywords, `_function_call_parser.py:36-40`. -/
def kwArgs : List (Option (Key κ) × ν) → Dict (Key κ) ν → Except Exc (Dict (Key κ) ν)
  | [], d => .ok d
  | (some k, v) :: rest, d => kwArgs rest (d.set k v)
  | (none, _) :: _, _ => .error .valueError

/-- The `arguments` of `parse_function_call`, `_function_call_parser.py:10-47`. -/
def parseArgs (c : Call κ ν) : Except Exc (Dict (Key κ) ν) := kwArgs c.keywords (posArgs 0 c.args [])

/-- The loop of `map_positional_args`, `_function_call_parser.py:54-65`; the first number is `pos_count`. -/
def mapLoop (params : List κ) : Nat → Dict (Key κ) ν → Dict κ ν → Except Exc (Dict κ ν)
  | _, [], out => .ok out
  | n, (.pos _, v) :: rest, out =>
    match params[n]? with
    | none => .error .valueError
    | some p => mapLoop params (n + 1) rest (out.set p v)
  | n, (.name k, v) :: rest, out => mapLoop params n rest (out.set k v)

/-- `map_positional_args`, `_function_call_parser.py:50-65`. -/
def mapPositional (params : List κ) (args : Dict (Key κ) ν) : Except Exc (Dict κ ν) := mapLoop params 0 args []

/-! ### `nest_arguments_by_schema` -/

/-- A schema: its field names, and for fields that are models (or unions with models) the names of their fields, in field order.
Serves `nestLoop` (`_function_call_parser.py:102-117`). -/
structure Schema (κ : Type) where
  fields : List κ
  nested : Dict κ (List κ)

/-- Values in the result. Serves `nest` (`_function_call_parser.py:68-122`). -/
inductive Val (κ ν : Type) where
  | leaf (v : ν)
  | dict (d : Dict κ ν)
  deriving DecidableEq, Repr

/-- The first nested field that has the key, `_function_call_parser.py:108-113`. -/
def owner (nested : Dict κ (List κ)) (k : κ) : Option κ := (nested.find? (fun e => decide (k ∈ e.2))).map Prod.fst

/-- The dict of a nested field so far. Serves `nestLoop` (`_function_call_parser.py:102-117`). -/
def nestedAt (n : Dict κ (Dict κ ν)) (f : κ) : Dict κ ν :=
  match n.get? f with
  | some d => d
  | none => []

/-- The loop, `_function_call_parser.py:102-117`: `result` and `nested_args`. -/
def nestLoop (S : Schema κ) : Dict κ ν → Dict κ ν × Dict κ (Dict κ ν) → Dict κ ν × Dict κ (Dict κ ν)
  | [], st => st
  | (k, v) :: rest, (res, nst) =>
    if k ∈ S.fields then nestLoop S rest (res.set k v, nst)
    else
      match owner S.nested k with
      | some f => nestLoop S rest (res, nst.set f ((nestedAt nst f).set k v))
      | none => nestLoop S rest (res.set k v, nst)

/-- The two kinds of entries of the result. Serves `nest` (`_function_call_parser.py:68-122`). -/
def leaves (d : Dict κ ν) : Dict κ (Val κ ν) := d.map (fun e => (e.1, .leaf e.2))
/-- Serves `nest` (`_function_call_parser.py:68-122`). -/
def dicts (d : Dict κ (Dict κ ν)) : Dict κ (Val κ ν) := d.map (fun e => (e.1, .dict e.2))

/-- `nest_arguments_by_schema`, `_function_call_parser.py:68-122`, for a model class. -/
def nest (S : Schema κ) (args : Dict κ ν) : Dict κ (Val κ ν) :=
  if S.nested.isEmpty then leaves args
  else (leaves (nestLoop S args ([], [])).1).update (dicts (nestLoop S args ([], [])).2)

end Verif.CallArgs
