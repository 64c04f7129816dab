import Verif.Py.Basic

/-!
# Model of `import_module`

`src/lionherd_core/ln/_utils.py:129-156`, on top of Python's `__import__`, `importlib.util.find_spec` and `getattr` on modules. Effects
of executing modules other than their attributes are not modelled.
-/

namespace Verif.ImportModule

/-- A dotted name, split at the dots. Serves `importModule` (`_utils.py:134-151`). -/
abbrev Name := List String

/-- What an import may give: a module or another object. Serves the model of `_utils.py:134-151`. -/
inductive Obj (α : Type) where
  | module (n : Name)
  | value (a : α)
  deriving DecidableEq, Repr

/-- Serves `importModule` (`_utils.py:134-151`). -/
inductive Err where
  | importError
  | attributeError
  deriving DecidableEq, Repr

/-- The modules that can be imported (importing one imports its packages, so a module counts only if its packages do) and the attributes
set by their code. Serves `importModule` (`_utils.py:134-151`). -/
structure World (α : Type) where
  loads : Name → Bool
  attr : Name → String → Option α

variable {α : Type}

/-- All packages of a module and the module itself can be imported. Serves the model of `_utils.py:134-151`. -/
def importable (W : World α) (n : Name) : Bool := n != [] && (List.range n.length).all (fun k => W.loads (n.take (k + 1)))

/-- `getattr(module, name)` after `__import__(..., fromlist=[name, ...])`, which has imported a submodule of that name if there is one.
Serves the model of `_utils.py:134-151`. -/
def getAttr (W : World α) (n : Name) (a : String) : Except Err (Obj α) :=
  match W.attr n a with
  | some v => .ok (.value v)
  | none => if importable W (n ++ [a]) then .ok (.module (n ++ [a])) else .error .attributeError

/-- `[getattr(a, name) for name in import_name]`. Serves the model of `_utils.py:134-151`. -/
def getAttrs (W : World α) (n : Name) : List String → Except Err (List (Obj α))
  | [] => .ok []
  | a :: as =>
    match getAttr W n a with
    | .error e => .error e
    | .ok v =>
      match getAttrs W n as with
      | .error e => .error e
      | .ok vs => .ok (v :: vs)

/-- The argument `import_name`. Serves `importModule` (`_utils.py:134-151`). -/
inductive Names where
  | none
  | one (a : String)
  | many (as : List String)
  deriving DecidableEq

/-- The result: one object or a list of objects. Serves `importModule` (`_utils.py:134-151`). -/
inductive Out (α : Type) where
  | one (o : Obj α)
  | many (os : List (Obj α))
  deriving DecidableEq, Repr

/-- `__import__(path)` without a fromlist returns the first package of the path. Serves `importModule` (`_utils.py:134-151`). -/
def plainImport (W : World α) (n : Name) : Except Err (Out α) :=
  if importable W n then .ok (.one (.module (n.take 1))) else .error .importError

/-- One attribute. Serves `importModule` (`_utils.py:134-151`). -/
def fromOne (W : World α) (n : Name) (a : String) : Except Err (Out α) :=
  if importable W n then
    match getAttr W n a with
    | .ok v => .ok (.one v)
    | .error e => .error e
  else .error .importError

/-- Several attributes. Serves `importModule` (`_utils.py:134-151`). -/
def fromMany (W : World α) (n : Name) (as : List String) : Except Err (Out α) :=
  if importable W n then
    match getAttrs W n as with
    | .ok vs => .ok (.many vs)
    | .error e => .error e
  else .error .importError

/-- `import_module(package_name, module_name, import_name)` with `n` the full import path, `_utils.py:134-151`: an `AttributeError` is
not caught. -/
def importModule (W : World α) (n : Name) : Names → Except Err (Out α)
  | .none => plainImport W n
  | .one a => if a = "" then plainImport W n else fromOne W n a
  | .many [] => plainImport W n
  | .many [a] => fromOne W n a
  | .many as => fromMany W n as

end Verif.ImportModule
