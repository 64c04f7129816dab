import Verif.Py.Basic
import Verif.Py.Dict

/-!
# Model of the content of a node

`_validate_content` (`src/lionherd_core/base/node.py:102-123`) and the declared type of the field (`:46`), as the constructor and `from_dict` use them.

pydantic turns `ValueError` and `AssertionError` raised by a validator into `ValidationError`; other exceptions leave the constructor as they are.  `from_dict` of `Node` and `Element` is a parameter.
Simplifications: no subclasses of `dict` with a `to_dict` method, no objects other than dicts with a `get` method as metadata, no keys equal to but different from a text.
-/

namespace Verif.NodeContent

/-- A value of a dict. `obj` are objects by identity: `truthy`, `hashable` tell how they behave. Serves `classOf` (`node.py:116-119`). -/
inductive V where
  | none
  | str (s : String)
  | bytes (b : String)
  | dict (es : List (String × V))
  | obj (id : Nat) (truthy hashable : Bool)

/-- What is passed as content: `None`, an object with `to_dict` or a pydantic model (`obj`), a dict (whose keys are texts or not), anything else. Serves `validate` (`node.py:106-112`). -/
inductive Arg where
  | none
  | serializable (id : Nat)
  | dict (es : Dict String V) (otherKeys : Nat)
  | other (id : Nat)

/-- Exceptions that matter. Serves `wrap` (`node.py:102-123`). -/
inductive Err where
  | value
  | type
  | attr
  | another (e : Nat)
  deriving DecidableEq, Repr

/-- What the validator returns: the value itself, or the element read from it. Serves `validate` (`node.py:102-123`). -/
inductive Got where
  | same
  | read (id : Nat)
  deriving DecidableEq, Repr

/-- The registry of node classes and the two functions that read dicts; `shortName` is `s.split(".")[-1]`. Serves `dispatch` (`node.py:119-122`). -/
structure World where
  registered : String → Bool
  shortName : String → String
  nodeFrom : Dict String V → Nat → Except Err Nat
  elementFrom : Dict String V → Nat → Except Err Nat

/-- Truth value of a class entry. Serves `dispatch` (`node.py:118`). -/
def V.truthy : V → Bool
  | .none => false
  | .str s => s != ""
  | .bytes b => b != ""
  | .dict es => !es.isEmpty
  | .obj _ t _ => t

/-- The result of a `from_dict` call as content. Serves `dispatch` (`node.py:119-122`). -/
def asGot : Except Err Nat → Except Err Got
  | .ok i => .ok (.read i)
  | .error e => .error e

/-- `node.py:118-123` for the class entry: membership in the registry hashes the entry, `split` needs a text. -/
def dispatch (w : World) (es : Dict String V) (n : Nat) : V → Except Err Got
  | .none => .ok .same
  | .str s =>
    if s = "" then .ok .same
    else if w.registered s || w.registered (w.shortName s) then asGot (w.nodeFrom es n) else asGot (w.elementFrom es n)
  | .bytes b => if b = "" then .ok .same else .error .type
  | .dict ds => if ds.isEmpty then .ok .same else .error .type
  | .obj _ t h => if t then (if h then .error .attr else .error .type) else .ok .same

/-- `node.py:115-123` for the value of the entry "metadata". -/
def fromMeta (w : World) (es : Dict String V) (n : Nat) : V → Except Err Got
  | .dict ms => dispatch w es n ((Dict.get? ms "lion_class").getD .none)
  | _ => .error .attr

/-- `_validate_content`, `node.py:102-123`. -/
def validate (w : World) : Arg → Except Err Got
  | .none => .ok .same
  | .serializable _ => .ok .same
  | .other _ => .error .type
  | .dict es n =>
    match es.get? "metadata" with
    | none => .ok .same
    | some m => fromMeta w es n m

/-- How the constructor ends. Serves `construct` (`node.py:46, 102-123`). -/
inductive Out where
  | content (g : Got)
  | validationError
  | escapes (e : Err)
  deriving DecidableEq, Repr

/-- pydantic: exceptions of a validator. Serves `construct` (`node.py:102-123`). -/
def wrap : Err → Out
  | .value => .validationError
  | e => .escapes e

/-- The declared type `dict[str, Any] | Serializable | BaseModel | None`, `node.py:46`: a dict needs texts as keys. -/
def declared : Arg → Got → Out
  | .dict _ n, .same => if n = 0 then .content .same else .validationError
  | _, g => .content g

/-- `Node(content=v)`, `node.py:46, 102-123`. -/
def construct (w : World) (v : Arg) : Out :=
  match validate w v with
  | .ok g => declared v g
  | .error e => wrap e

end Verif.NodeContent
