import Verif.Model.FuzzyJson
import Verif.Model.Json

/-!
# `fuzzy_json` with the JSON reader of the model

`src/lionherd_core/libs/string_handlers/_fuzzy_json.py`, with `orjson.loads` as in `Verif.Model.Json` instead of a parameter.
-/

namespace Verif.FuzzyJson

/-- A dict as an item of a list; other items are not told apart. Serves `shape` (`_fuzzy_json.py:52-86`). -/
def itemDict : Json.J → Option Json.J
  | .obj l => some (.obj l)
  | _ => none

/-- Parsed values as `_validate_return_type` looks at them, `_fuzzy_json.py:52-86`. -/
def shape : Json.J → J Json.J
  | .obj l => .dict (.obj l)
  | .arr l => .list (l.map itemDict)
  | v => .prim v

/-- `orjson.loads` as `fuzzy_json` uses it, `_fuzzy_json.py:26, 33, 40`. -/
def loadsJson (s : Str) : Option (J Json.J) := (Json.loads s).map shape

/-- `fuzzy_json`, `_fuzzy_json.py:11-49`. -/
def fuzzyRead (s : Str) : Except Exc (J Json.J) := fuzzyJson loadsJson s

end Verif.FuzzyJson
