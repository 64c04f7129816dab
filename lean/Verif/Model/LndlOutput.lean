import Verif.Py.Dict
import Verif.Py.Basic

/-!
# Model of attribute access on `LNDLOutput` (`src/lionherd_core/lndl/types.py:98-146`)

`own` are the attributes found by the normal lookup: the five dataclass fields, `__getitem__` and everything else the class and `object` define.
-/

namespace Verif.LndlOutput

variable {ν : Type}

/-- The dataclass fields, `types.py:134-138`. -/
def slots : List String := ["fields", "lvars", "lacts", "actions", "raw_out_block"]

/-- Serves `getItem` (`types.py:140-141`). -/
structure Output (ν : Type) where
  own : Dict String ν
  fields : Dict String ν

/-- `output[key]`, `types.py:140-141`. -/
def getItem (o : Output ν) (k : String) : Except Exc ν :=
  match o.fields.get? k with
  | some v => .ok v
  | none => .error .keyError

/-- `LNDLOutput.__getattr__`, `types.py:143-146`. -/
def fallback (o : Output ν) (k : String) : Except Exc ν := if k ∈ slots then .error .attributeError else getItem o k

/-- `output.key`: Python calls `__getattr__` only if the normal lookup fails. Built on `fallback` (`types.py:143-146`). -/
def attr (o : Output ν) (k : String) : Except Exc ν :=
  match o.own.get? k with
  | some v => .ok v
  | none => fallback o k

/-- The builtin `getattr(obj, key, default)`: only AttributeError gives the default. Part of the model of `src/lionherd_core/lndl/types.py:98-146`. -/
def orDefault (dflt : ν) : Except Exc ν → Except Exc ν
  | .ok v => .ok v
  | .error .attributeError => .ok dflt
  | .error e => .error e

/-- `getattr(output, key, default)`. Built on `fallback` (`types.py:143-146`). -/
def getattrDefault (o : Output ν) (k : String) (dflt : ν) : Except Exc ν := orDefault dflt (attr o k)

/-- The builtin `hasattr`: False for AttributeError only. Part of the model of `src/lionherd_core/lndl/types.py:98-146`. -/
def present : Except Exc ν → Except Exc Bool
  | .ok _ => .ok true
  | .error .attributeError => .ok false
  | .error e => .error e

/-- `hasattr(output, key)`. Built on `fallback` (`types.py:143-146`). -/
def hasAttr (o : Output ν) (k : String) : Except Exc Bool := present (attr o k)

end Verif.LndlOutput
