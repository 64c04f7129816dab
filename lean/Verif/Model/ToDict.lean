import Verif.Py.Basic
import Verif.Py.Dict

/-!
# Model of `ln.to_dict` (`src/lionherd_core/ln/_to_dict.py`)
-/

namespace Verif.ToDict

/-- Python values. `atom`: values of other built-in types that have none of the conversion methods and on which `dict()` raises (numbers, booleans, non-empty bytes, dates, UUIDs; not empty bytes, which `dict()` turns into `{}`); `enum`: an `Enum` class with the values of its members; `obj`: an instance of any other class (also of subclasses of the built-in containers — the code also processes their items but discards the outcome). Sets are listed in iteration order.
Serves `Env` (`_to_dict.py:62-97`). -/
inductive V (κ α : Type) where
  | str (s : List Char)
  | none
  | atom (a : α)
  | dict (d : List (κ × V κ α))
  | list (l : List (V κ α))
  | tuple (l : List (V κ α))
  | set (l : List (V κ α))
  | frozenset (l : List (V κ α))
  | enum (d : List (κ × V κ α))
  | obj (o : α)

variable {κ α : Type}

/-- A `parser=` argument: what it returns when called with the text alone (`none`: it raised), and when called with the text and the keyword `use_enum_values` — `none` for a parser that has no such parameter (`TypeError`).
Serves `Env` (`_to_dict.py:62-97`). -/
structure Parser (κ α : Type) where
  run : List Char → Option (V κ α)
  runWith : List Char → Option (V κ α)

/-- The external conversions: `json` is `orjson.loads`, or `fuzzy_json` with `fuzzy_parse=True` (`none`: raised); `parser` is the argument of that name; `mapping` is `_object_to_mapping_like` (`_to_dict.py:62-97`; `none`: raised); `mkSet` is `set(items)` (`none`: an item is unhashable); `position i` is the integer key `i`; `same v` is the key that equals the set member `v`; `pairs` is `dict(items)` (`none`: raised, because an item is not a pair of a hashable and a value). Further keyword arguments (`**kwargs`) are not modelled. -/
structure Env (κ α : Type) where
  json : List Char → Option (V κ α)
  parser : Option (Parser κ α)
  mapping : α → Option (V κ α)
  mkSet : List (V κ α) → Option (List (V κ α))
  position : Nat → κ
  same : V κ α → κ
  pairs : List (V κ α) → Option (List (κ × V κ α))

/-- `_parse_str` as called by the top-level conversion, `_to_dict.py:38-59, 250-255`. -/
def Env.parse (E : Env κ α) (s : List Char) : Option (V κ α) :=
  match E.parser with
  | some p => p.run s
  | none => E.json s

/-- `_parse_str` as called by the recursion, `_to_dict.py:38-59, 133-135, 342-347`: `str_parse_opts` holds `use_enum_values`, which `_parse_str` passes on to the parser. -/
def Env.parseIn (E : Env κ α) (s : List Char) : Option (V κ α) :=
  match E.parser with
  | some p => p.runWith s
  | none => E.json s

/-- A sequence of recursive calls, left to right; the first exception propagates. Serves `pre` (`_to_dict.py:109-211`). -/
def all (f : V κ α → Except Exc (V κ α)) : List (V κ α) → Except Exc (List (V κ α))
  | [] => .ok []
  | v :: vs =>
    match f v with
    | .error e => .error e
    | .ok w =>
      match all f vs with
      | .error e => .error e
      | .ok ws => .ok (w :: ws)

/-- The same on the values of a mapping. Serves `pre` (`_to_dict.py:109-211`). -/
def allValues (f : V κ α → Except Exc (V κ α)) : List (κ × V κ α) → Except Exc (List (κ × V κ α))
  | [] => .ok []
  | (k, v) :: vs =>
    match f v with
    | .error e => .error e
    | .ok w =>
      match allValues f vs with
      | .error e => .error e
      | .ok ws => .ok ((k, w) :: ws)

/-- Wrapping the processed items. Serves `pre` (`_to_dict.py:109-211`). -/
def wrap (g : List (V κ α) → V κ α) : Except Exc (List (V κ α)) → Except Exc (V κ α)
  | .ok l => .ok (g l)
  | .error e => .error e

/-- Serves `pre` (`_to_dict.py:109-211`). -/
def wrapSet (mk : List (V κ α) → Option (List (V κ α))) (g : List (V κ α) → V κ α) : Except Exc (List (V κ α)) → Except Exc (V κ α)
  | .error e => .error e
  | .ok l =>
    match mk l with
    | some s => .ok (g s)
    | none => .error .typeError

/-- Serves `pre` (`_to_dict.py:109-211`). -/
def wrapDict : Except Exc (List (κ × V κ α)) → Except Exc (V κ α)
  | .ok d => .ok (.dict d)
  | .error e => .error e

/-- `with contextlib.suppress(Exception): return ...` followed by `return obj`. Serves `pre` (`_to_dict.py:109-211`). -/
def orElse (v : V κ α) : Except Exc (V κ α) → Except Exc (V κ α)
  | .ok w => .ok w
  | .error _ => .ok v

/-- Recursing into the outcome of a conversion that may itself raise. Serves `pre` (`_to_dict.py:109-211`). -/
def andThen (f : V κ α → Except Exc (V κ α)) : Option (V κ α) → Except Exc (V κ α)
  | some w => f w
  | none => .error .valueError

/-- `_preprocess_recursive`, `_to_dict.py:109-211`; the argument is `max_depth - depth`. `custom` is `recursive_custom_types`. -/
def pre (E : Env κ α) (custom : Bool) : Nat → V κ α → Except Exc (V κ α)
  | 0, v => .ok v
  | n + 1, .str s => orElse (.str s) (andThen (pre E custom n) (E.parseIn s))
  | n + 1, .dict d => wrapDict (allValues (pre E custom n) d)
  | n + 1, .list l => wrap .list (all (pre E custom n) l)
  | n + 1, .tuple l => wrap .tuple (all (pre E custom n) l)
  | n + 1, .set l => wrapSet E.mkSet .set (all (pre E custom n) l)
  | n + 1, .frozenset l => wrapSet E.mkSet .frozenset (all (pre E custom n) l)
  | n + 1, .enum d => orElse (.enum d) (pre E custom n (.dict d))
  | n + 1, .obj o => if custom then orElse (.obj o) (andThen (pre E custom n) (E.mapping o)) else .ok (.obj o)
  | _ + 1, .none => .ok .none
  | _ + 1, .atom a => .ok (.atom a)

/-- Enumerating an iterable, `_to_dict.py:100-101`. -/
def enumerate (E : Env κ α) (l : List (V κ α)) : V κ α := .dict (l.mapIdx (fun i v => (E.position i, v)))

/-- What becomes of a converted object, `_to_dict.py:262-285`: mappings are copied, texts parsed as JSON (`parser=None`), other containers enumerated; `none`: the code goes on (an exception was suppressed). -/
def converted (E : Env κ α) : V κ α → Option (V κ α)
  | .dict d => some (.dict d)
  | .str s => E.json s
  | .list l => some (enumerate E l)
  | .tuple l => some (enumerate E l)
  | .set l => some (enumerate E l)
  | .frozenset l => some (enumerate E l)
  | _ => none

/-- Serves `topLevel` (`_to_dict.py:219-293`). -/
def raiseIfNone : Option (V κ α) → Except Exc (V κ α)
  | some v => .ok v
  | none => .error .typeError

/-- A text that does not parse raises `ValueError` (`JSONDecodeError`). Serves `topLevel` (`_to_dict.py:219-293`). -/
def raiseParse : Option (V κ α) → Except Exc (V κ α)
  | some v => .ok v
  | none => .error .valueError

/-- A frozenset is no `Sequence`: `_object_to_mapping_like` tries `dict(obj)` first, `_to_dict.py:97, 259-263`; if that raises it is enumerated, `_to_dict.py:280-281`. -/
def frozen (E : Env κ α) (l : List (V κ α)) : V κ α :=
  match E.pairs l with
  | some d => .dict d
  | none => enumerate E l

/-- `_convert_top_level_to_dict`, `_to_dict.py:219-293`. Enum members appear with their values (`use_enum_values=True`). Not modelled: objects that are iterable but not convertible, undefined sentinels (`{}`), empty bytes (`{}`). -/
def topLevel (E : Env κ α) : V κ α → Except Exc (V κ α)
  | .set l => .ok (.dict (l.map (fun v => (E.same v, v))))
  | .enum d => .ok (.dict d)
  | .dict d => .ok (.dict d)
  | .none => .ok (.dict [])
  | .str s => raiseParse (E.parse s)
  | .list l => .ok (enumerate E l)
  | .tuple l => .ok (enumerate E l)
  | .frozenset l => .ok (frozen E l)
  | .atom _ => .error .typeError
  | .obj o => raiseIfNone ((E.mapping o).bind (converted E))

/-- The argument `max_recursive_depth`: an integer or something else. Serves `depthOf` (`_to_dict.py:331-339`). -/
inductive DepthArg where
  | int (i : Int)
  | other
  deriving DecidableEq

/-- The depth in effect, `_to_dict.py:331-339`. -/
def depthOf : DepthArg → Except Exc Nat
  | .other => .ok 5
  | .int i => if i < 0 then .error .valueError else if i > 10 then .error .valueError else .ok i.toNat

/-- Serves `toDict` (`_to_dict.py:296-373`). -/
def isEmptyStr : V κ α → Bool
  | .str [] => true
  | _ => false

/-- The body of the `try`, `_to_dict.py:330-368`. -/
def body (E : Env κ α) (recursive pythonOnly : Bool) (depth : DepthArg) (v : V κ α) : Except Exc (V κ α) :=
  match depthOf depth with
  | .error e => .error e
  | .ok n =>
    if recursive then
      match pre E (!pythonOnly) n v with
      | .error e => .error e
      | .ok w => topLevel E w
    else topLevel E v

/-- `to_dict`, `_to_dict.py:296-373`. -/
def toDict (E : Env κ α) (suppress recursive pythonOnly : Bool) (depth : DepthArg) (v : V κ α) : Except Exc (V κ α) :=
  match body E recursive pythonOnly depth v with
  | .ok w => .ok w
  | .error e => if suppress || isEmptyStr v then .ok (.dict []) else .error e

/-- `Node._serialize_content`, `base/node.py:62-75`: `to_dict(value, recursive=True, recursive_python_only=False)`. -/
def serializeContent (E : Env κ α) (v : V κ α) : Except Exc (V κ α) := toDict E false true false .other v

end Verif.ToDict
