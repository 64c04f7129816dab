import Verif.Model.KeyMatch
import Verif.Model.FuzzyJson

/-!
# Model of `src/lionherd_core/ln/_fuzzy_validate.py` and of the validation pipeline of
`src/lionherd_core/types/spec_adapters/_protocol.py` with the steps of `pydantic_field.py`

The target class is given by the names of its fields and a function `validate` (`model_validate`): `.error e` if it raises `e`.
-/

namespace Verif.Validate

open Verif.KeyMatch (Cfg Mode fuzzyMatchKeys)
open Verif.FuzzyJson (Str extractJson Extracted)

/-- Values that a JSON parser returns: objects, arrays, and the rest.  The values of an object are opaque.
Serves `extract` (`_extract_json.py:16-65`). -/
inductive Val (κ ν : Type) where
  | dict (d : Dict κ ν)
  | list (l : List (Val κ ν))
  | other (v : ν)

variable {κ ν μ : Type} [DecidableEq κ]

/-- The value returned by `extract_json`: the Python code does not distinguish a parsed array from a list of parsed blocks.
Serves `extract` (`_extract_json.py:16-65`). -/
def asValue : Extracted (Val κ ν) → Val κ ν
  | .one v => v
  | .many vs => .list vs

/-- `extract_json(text, fuzzy_parse=...)`, `_extract_json.py:16-65`; `parse` is the parser in effect, `none` if it raises. -/
def extract (parse : Str → Option (Val κ ν)) (s : Str) : Val κ ν := asValue (extractJson parse true s)

/-- `fuzzy_match_keys(d, fields, ...)` on any value, `_fuzzy_match.py:60-147`: a value that is not a dict raises TypeError. -/
def matchKeys (c : Cfg κ ν) (fields : List κ) : Val κ ν → Except Exc (Dict κ ν)
  | .dict d => fuzzyMatchKeys c fields d
  | _ => .error .typeError

/-! ### `fuzzy_validate_pydantic` -/

/-- The first argument: an instance of the target class, a dict, a text, or something `extract_json` cannot read. A list of texts is the text of its lines.
Serves `pydanticData` (`_fuzzy_validate.py:48-57`). -/
inductive Input (κ ν μ : Type) where
  | inst (m : μ)
  | dict (d : Dict κ ν)
  | text (s : Str)
  | bad

/-- `fuzzy_match_params`: absent, a dict of options or a `FuzzyMatchKeysParams` (both amount to a configuration), or anything else.
Serves `pydanticMatch` (`_fuzzy_validate.py:59-68`). -/
inductive MatchParams (κ ν : Type) where
  | absent
  | options (c : Cfg κ ν)
  | bad

/-- What is to be validated, `_fuzzy_validate.py:48-57`; instances are returned before. -/
def pydanticData (parse : Str → Option (Val κ ν)) : Input κ ν μ → Except Exc (Val κ ν)
  | .inst _ => .error .validation
  | .dict d => .ok (.dict d)
  | .text s => .ok (extract parse s)
  | .bad => .error .validation

/-- The configuration used without parameters: the defaults with `handle_unmatched="remove"`, `_fuzzy_validate.py:62`. -/
def removing (c : Cfg κ ν) : Cfg κ ν := { c with fuzzy := true, mode := .remove, strict := false }

/-- Serves `pydanticMatch` (`_fuzzy_validate.py:59-68`). -/
def wrapDict : Except Exc (Dict κ ν) → Except Exc (Val κ ν)
  | .ok d => .ok (.dict d)
  | .error e => .error e

/-- The key matching, `_fuzzy_validate.py:59-68`. -/
def pydanticMatch (base : Cfg κ ν) (fields : List κ) (p : MatchParams κ ν) (v : Val κ ν) : Except Exc (Val κ ν) :=
  match p with
  | .absent => wrapDict (matchKeys (removing base) fields v)
  | .options c => wrapDict (matchKeys c fields v)
  | .bad => .error .typeError

/-- `model_validate` with every exception turned into ValidationError, `_fuzzy_validate.py:70-73`. -/
def pydanticValidate (validate : Val κ ν → Except Exc μ) (v : Val κ ν) : Except Exc μ :=
  match validate v with
  | .ok m => .ok m
  | .error _ => .error .validation

/-- Serves `fuzzyValidatePydantic` (`_fuzzy_validate.py:22-73`). -/
def pydanticTail (base : Cfg κ ν) (fields : List κ) (validate : Val κ ν → Except Exc μ) (fuzzyMatch : Bool) (p : MatchParams κ ν)
    (v : Val κ ν) : Except Exc μ :=
  if fuzzyMatch then
    match pydanticMatch base fields p v with
    | .ok w => pydanticValidate validate w
    | .error e => .error e
  else pydanticValidate validate v

/-- `fuzzy_validate_pydantic`, `_fuzzy_validate.py:22-73`. -/
def fuzzyValidatePydantic (parse : Str → Option (Val κ ν)) (base : Cfg κ ν) (fields : List κ) (validate : Val κ ν → Except Exc μ)
    (fuzzyMatch : Bool) (p : MatchParams κ ν) (i : Input κ ν μ) : Except Exc μ :=
  match i with
  | .inst m => .ok m
  | j =>
    match pydanticData parse j with
    | .error e => .error e
    | .ok v => pydanticTail base fields validate fuzzyMatch p v

/-! ### `fuzzy_validate_mapping` -/

/-- The first argument: None, a text, or an object with the result of `to_dict(d, suppress=True, ...)` (modelled in `ToDict.lean`).
Serves `mapValue` (`_fuzzy_validate.py:118-126`). -/
inductive MapInput (κ ν : Type) where
  | none
  | text (s : Str)
  | obj (converted : Val κ ν)

/-- `to_dict(text, fuzzy_parse=True, suppress=True)`, `_to_dict.py:296-373`: the parsed text, `{}` if it cannot be parsed. -/
def toDictText (parse : Str → Option (Val κ ν)) (s : Str) : Val κ ν :=
  match parse s with
  | some v => v
  | none => .dict []

/-- `json_result[0] if isinstance(json_result, list) else json_result`, with the fallback of the `except`, `_fuzzy_validate.py:120-124`. -/
def firstOr (fallback : Val κ ν) : Val κ ν → Val κ ν
  | .list [] => fallback
  | .list (v :: _) => v
  | v => v

/-- The value converted to a dictionary, `_fuzzy_validate.py:118-126`. -/
def mapValue (parse : Str → Option (Val κ ν)) : MapInput κ ν → Val κ ν
  | .none => .dict []
  | .text s => firstOr (toDictText parse s) (extract parse s)
  | .obj v => v

/-- `_fuzzy_validate.py:128-138`. -/
def mapDict (suppress : Bool) : Val κ ν → Except Exc (Dict κ ν)
  | .dict d => .ok d
  | _ => if suppress then .ok [] else .error .valueError

/-- `fuzzy_validate_mapping`, `_fuzzy_validate.py:76-151`. -/
def fuzzyValidateMapping (parse : Str → Option (Val κ ν)) (c : Cfg κ ν) (keys : List κ) (suppress : Bool) (i : MapInput κ ν) :
    Except Exc (Dict κ ν) :=
  match i with
  | .none => .error .typeError
  | j =>
    match mapDict suppress (mapValue parse j) with
    | .error e => .error e
    | .ok d => fuzzyMatchKeys c keys d

/-! ### `SpecAdapter.validate_response`, `SpecAdapter.update_model` -/

/-- Unwrapping single-item lists, `_protocol.py:68-72`. -/
def unwrap : Val κ ν → Val κ ν
  | .list [v] => v
  | v => v

/-- `parse_json`, `_protocol.py:61-74`. -/
def parseJson (parse : Str → Option (Val κ ν)) (s : Str) : Val κ ν := unwrap (extract parse s)

/-- The configuration of `fuzzy_match_fields`, `pydantic_field.py:160-164`. -/
def fieldsCfg (base : Cfg κ ν) (strict : Bool) : Cfg κ ν :=
  { base with fuzzy := true, mode := if strict then .raise else .ignore, strict := false }

/-- `{k: v for k, v in matched.items() if not_sentinel(v)}`, `pydantic_field.py:167`. -/
def dropSentinels (sentinel : ν → Bool) (d : Dict κ ν) : Dict κ ν := d.filter (fun kv => !sentinel kv.2)

/-- Serves `fuzzyMatchFields` (`pydantic_field.py:151-167`). -/
def dropIn (sentinel : ν → Bool) : Except Exc (Dict κ ν) → Except Exc (Dict κ ν)
  | .ok d => .ok (dropSentinels sentinel d)
  | .error e => .error e

/-- `PydanticSpecAdapter.fuzzy_match_fields`, `pydantic_field.py:151-167`. -/
def fuzzyMatchFields (base : Cfg κ ν) (sentinel : ν → Bool) (fields : List κ) (strict : Bool) (v : Val κ ν) : Except Exc (Dict κ ν) :=
  dropIn sentinel (matchKeys (fieldsCfg base strict) fields v)

/-- `except (ValueError, TypeError, KeyError, AttributeError)`, `_protocol.py:103`; pydantic's ValidationError is a ValueError. -/
def caught : Exc → Bool
  | .valueError => true
  | .typeError => true
  | .keyError => true
  | .attributeError => true
  | _ => false

/-- The handler, `_protocol.py:103-111`. -/
def handle (strict : Bool) : Except Exc μ → Except Exc (Option μ)
  | .ok m => .ok (some m)
  | .error e => if caught e && !strict then .ok none else .error e

/-- The `try` block, `_protocol.py:91-101`. -/
def pipeline (parse : Str → Option (Val κ ν)) (base : Cfg κ ν) (sentinel : ν → Bool) (fields : List κ) (validate : Dict κ ν → Except Exc μ)
    (strict : Bool) (s : Str) : Except Exc μ :=
  match fuzzyMatchFields base sentinel fields strict (parseJson parse s) with
  | .error e => .error e
  | .ok d => validate d

/-- `validate_response`, `_protocol.py:82-111`. -/
def validateResponse (parse : Str → Option (Val κ ν)) (base : Cfg κ ν) (sentinel : ν → Bool) (fields : List κ)
    (validate : Dict κ ν → Except Exc μ) (strict : Bool) (s : Str) : Except Exc (Option μ) :=
  handle strict (pipeline parse base sentinel fields validate strict s)

/-- `update_model`, `_protocol.py:113-125`; `dump` is `model_dump`. -/
def updateModel (dump : μ → Dict κ ν) (validate : Dict κ ν → Except Exc μ) (m : μ) (updates : Dict κ ν) : Except Exc μ :=
  validate ((dump m).update updates)

end Verif.Validate
