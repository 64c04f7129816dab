import Verif.Py.Basic

/-!
# How `json_dumpb` writes values: what `orjson` writes itself and what goes through `default`

`src/lionherd_core/ln/_json_dump.py:218-290`.  `orjson` writes text, numbers, lists, dicts and members of enumerations (by their value) itself; every other object is given to
`default`, whose result is written in its place (`orjson` gives up after 254 such steps; the fuel here is that limit).
-/

namespace Verif.JsonEncode

/-- Python values; `ο` are the objects that `orjson` does not write itself. Serves `defaultFn` (`_json_dump.py:138-166`). -/
inductive V (ο : Type) where
  | atom (t : String)                        -- a number, a literal, a date or a UUID, by its text
  | str (s : String)
  | list (xs : List (V ο))
  | dict (kvs : List (String × V ο))
  | enum (name : String) (value : V ο)
  | other (o : ο)

/-- The JSON that is written. Part of the model of `src/lionherd_core/ln/_json_dump.py:218-290`. -/
inductive J where
  | atom (t : String)
  | str (s : String)
  | list (xs : List J)
  | dict (kvs : List (String × J))

variable {ο : Type}

/-- `default(obj)`, `_json_dump.py:138-166`, as far as the flag `enum_as_name` is concerned: with the flag, `Enum` comes first in the order and has the serializer `e.name` (`:73-74, 117-118`); all else is `f`,
`none` when it raises. -/
def defaultFn (enumAsName : Bool) (f : V ο → Option (V ο)) (v : V ο) : Option (V ο) :=
  match v with
  | .enum name _ => if enumAsName then some (.str name) else f v
  | _ => f v

mutual
/-- `orjson.dumps(v, default=default)`; `none`: it raises. Part of the model of `src/lionherd_core/ln/_json_dump.py:218-290`. -/
def encode (d : V ο → Option (V ο)) : Nat → V ο → Option J
  | _, .atom t => some (.atom t)
  | _, .str s => some (.str s)
  | n, .list xs => (encodeList d n xs).map .list
  | n, .dict kvs => (encodeDict d n kvs).map .dict
  | n, .enum _ v => encode d n v
  | 0, .other _ => none
  | n + 1, .other o => (d (.other o)).bind (encode d n)
termination_by n v => (n, sizeOf v)
/-- The items of a list. Part of the model of `src/lionherd_core/ln/_json_dump.py:218-290`. -/
def encodeList (d : V ο → Option (V ο)) : Nat → List (V ο) → Option (List J)
  | _, [] => some []
  | n, x :: xs => (encode d n x).bind fun j => (encodeList d n xs).map (j :: ·)
termination_by n v => (n, sizeOf v)
/-- The entries of a dict. Part of the model of `src/lionherd_core/ln/_json_dump.py:218-290`. -/
def encodeDict (d : V ο → Option (V ο)) : Nat → List (String × V ο) → Option (List (String × J))
  | _, [] => some []
  | n, (k, x) :: xs => (encode d n x).bind fun j => (encodeDict d n xs).map ((k, j) :: ·)
termination_by n v => (n, sizeOf v)
end

/-- `json_dumps(v, enum_as_name=flag)` with the limit of `orjson`. Built on `defaultFn` (`_json_dump.py:138-166`). -/
def dumps (enumAsName : Bool) (f : V ο → Option (V ο)) (v : V ο) : Option J := encode (defaultFn enumAsName f) 254 v

end Verif.JsonEncode
