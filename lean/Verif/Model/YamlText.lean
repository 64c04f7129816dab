import Verif.Model.Prune
import Verif.Model.Json

/-!
# What `minimal_yaml` hands to the YAML dumper (`src/lionherd_core/libs/schema_handlers/_minimal_yaml.py:70-99`)

`orjson.loads` is `Json.loads`; numbers are kept as their texts.  The dumper itself is not modelled.
-/

namespace Verif.Prune
open Verif.Json

/-- The value of a key replaced where the key stands, or the entry added at the end: how a Python dict takes an entry. Serves the model of
`orjson.loads` in `_minimal_yaml.py:82`. -/
def kset (k : Str) (v : Val Str Str) : Val Str Str → Val Str Str
  | .kcons k' h t => if k' = k then .kcons k' v t else .kcons k' h (kset k v t)
  | _ => .kcons k v .nil

mutual
/-- The Python value that `orjson.loads` makes, `_minimal_yaml.py:82`: `null` is `None`; other literals and numbers have no special treatment. -/
def toVal : J → Val Str Str
  | .token t _ => if t = ['n', 'u', 'l', 'l'] then .none else .other t
  | .str s => .str s
  | .arr l => .coll .list (toItems l)
  | .obj l => .coll .dict (toFields .nil l)
/-- The items of a list, `_minimal_yaml.py:82`. -/
def toItems : List J → Val Str Str
  | [] => .nil
  | v :: l => .cons (toVal v) (toItems l)
/-- The entries of a dict, entered one after the other, `_minimal_yaml.py:82`. -/
def toFields : Val Str Str → List (Str × J) → Val Str Str
  | acc, [] => acc
  | acc, (k, v) :: l => toFields (kset k (toVal v) acc) l
end

/-- The value after `_minimal_yaml.py:79-85`: a text that is JSON is replaced by what it denotes. -/
def parsed : Val Str Str → Val Str Str
  | .str t => ((loads t).map toVal).getD (.str t)
  | v => v

/-- What is dumped, `_minimal_yaml.py:79-88`. -/
def yamlData (drop : Bool) (v : Val Str Str) : Val Str Str := if drop then prune (parsed v) else parsed v

end Verif.Prune
