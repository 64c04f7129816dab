import Verif.Py.Basic

/-!
# Model of the `@implements` decorator (`src/lionherd_core/protocols.py:141-226`)
-/

namespace Verif.Implements

/-- What a protocol class holds under a name: something callable (methods, class methods), a property, another value, or only an annotation without a value.
Serves `counts` (`protocols.py:203`). -/
inductive Member where
  | callable
  | property
  | value
  | annotation
  deriving DecidableEq

/-- A protocol: the names of its class and base protocols, with what they hold. Serves `members` (`protocols.py:198-204`). -/
abbrev Protocol := List (List Char × Member)

/-- A class: the names in its own `__dict__`, those in its own `__annotations__`, and the names it inherits.
Serves `inBody` (`protocols.py:210-214`). -/
structure Cls where
  body : List (List Char)
  annotations : List (List Char)
  inherited : List (List Char)
  deriving DecidableEq

/-- `name.startswith("_")`, `protocols.py:200`. -/
def isPrivate : List Char → Bool
  | '_' :: _ => true
  | _ => false

/-- The test of `protocols.py:203`: `callable(obj) or isinstance(obj, (property, classmethod))`. A bare annotation is not an attribute and does not appear in `inspect.getmembers`. -/
def counts : Member → Bool
  | .callable => true
  | .property => true
  | _ => false

/-- `protocol_members`, `protocols.py:198-204`. -/
def members (P : Protocol) : List (List Char) := (P.filter (fun m => !isPrivate m.1 && counts m.2)).map Prod.fst

/-- `in_class_body`, `protocols.py:210-214`. -/
def inBody (c : Cls) (n : List Char) : Bool := c.body.contains n || c.annotations.contains n

/-- The decorator, `protocols.py:192-224`: the class (with its `__protocols__`) or `TypeError`. -/
def implements (Ps : List Protocol) (c : Cls) : Except Exc (Cls × List Protocol) :=
  if Ps.all (fun P => (members P).all (inBody c)) then .ok (c, Ps) else .error .typeError

end Verif.Implements
