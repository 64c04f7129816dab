import Verif.Py.Basic
import Verif.Py.Dict

/-!
# Model of the classes that items declare to `Pile.from_dict(data, item_meta_key=...)`

The check over all items (`src/lionherd_core/base/pile.py:702-740`) and the loop that builds them (`:756-759`), with the place where `Element.from_dict` looks for the class (`base/element.py:172-208`).
`Verif.Model.Pile` models loading without keys.

Simplifications: the items have different ids; the constraint is the one in effect, as a test on classes, and `pile.add` uses the same test; the names in `item_type` can be loaded; of an item dict only the
entries are kept that hold metadata, everything else enters by `fails`; the declared class is a text or missing.
-/

namespace Verif.PileLoadKeys

/-- Metadata of an item dict: a dict with the text under "lion_class", if any, or something that is not a dict. Serves `metaOf` (`element.py:183-189`). -/
inductive MV where
  | dict (cls : Option String)
  | other
  deriving DecidableEq, Repr

/-- An item dict: its entries that hold metadata. Serves `metaOf` (`element.py:172-183`). -/
abbrev Item := Dict String MV

/-- Exceptions that matter. Serves `fromDict` (`pile.py:671-761`). -/
inductive Err where
  | value
  | type
  | attr
  | another (e : Nat)
  deriving DecidableEq, Repr

/-- `load_type_from_string`, the class `Element` and its name, the test for subclasses of `Element`, and what building an item as a class raises, if anything.
Serves `build` (`element.py:191-220`). -/
structure World (γ : Type) where
  load : String → Option γ
  element : γ
  elementName : String
  isElement : γ → Bool
  fails : Item → γ → Option Err

variable {γ : Type}

/-- `if meta_key and meta_key in data`, `element.py:175-176`: the metadata under the key. -/
def given (key : Option String) (it : Item) : Option MV := key.bind fun k => if k = "" then none else it.get? k

/-- The metadata in effect, `element.py:175-183`. -/
def metaOf (key : Option String) (it : Item) : Option MV := (given key it).or ((it.get? "metadata").or (it.get? "node_metadata"))

/-- `metadata.pop("lion_class", None)` and its truth test, `element.py:187-191`. -/
def nameIn : Option MV → Option String
  | some (.dict (some n)) => if n = "" then none else some n
  | _ => none

/-- The end of building an item as class `c`. Serves `build` (`element.py:205-220`). -/
def finish (W : World γ) (it : Item) (c : γ) : Except Err γ :=
  match W.fails it c with
  | some e => .error e
  | none => .ok c

/-- Building as a loaded class, `element.py:194-203`. -/
def finishLoaded (W : World γ) (it : Item) : Option γ → Except Err γ
  | none => .error .value
  | some c => if W.isElement c then finish W it c else .error .value

/-- `Element.from_dict(item_dict, meta_key=item_meta_key)`, `element.py:161-220`: the class of the item. -/
def build (W : World γ) (key : Option String) (it : Item) : Except Err γ :=
  match nameIn (metaOf key it) with
  | none => finish W it W.element
  | some n => if n = W.elementName then finish W it W.element else finishLoaded W it (W.load n)

/-- The check of a declared name, `pile.py:720-740`. -/
def checkName (W : World γ) (allowed : γ → Bool) : Option String → Option Err
  | none => none
  | some n => (W.load n).bind fun c => if allowed c then none else some .type

/-- The check of one item, `pile.py:718-740`: it looks under "metadata". -/
def checkOne (W : World γ) (allowed : γ → Bool) (it : Item) : Option Err :=
  match it.get? "metadata" with
  | some .other => some .attr
  | m => checkName W allowed (nameIn m)

/-- The test of `pile.add`. Serves `loop` (`pile.py:759`). -/
def allows : Option (γ → Bool) → γ → Bool
  | none, _ => true
  | some a, c => a c

/-- The loop that builds and adds the items, `pile.py:756-759`: how many items `Element.from_dict` was called for, and the classes of the items in the pile. -/
def loop (W : World γ) (key : Option String) (al : Option (γ → Bool)) : List Item → List γ → Nat × Except Err (List γ)
  | [], acc => (0, .ok acc)
  | it :: rest, acc =>
    match build W key it with
    | .error e => (1, .error e)
    | .ok c => if allows al c then ((loop W key al rest (acc ++ [c])).1 + 1, (loop W key al rest (acc ++ [c])).2) else (1, .error .type)

/-- The first failure of the check over all items, `pile.py:704-740`. -/
def precheck (W : World γ) (al : Option (γ → Bool)) (items : List Item) : Option Err := al.bind fun a => items.findSome? (checkOne W a)

/-- `Pile.from_dict(data, item_meta_key=key)`, `pile.py:671-761`. -/
def fromDict (W : World γ) (key : Option String) (al : Option (γ → Bool)) (items : List Item) : Nat × Except Err (List γ) :=
  match precheck W al items with
  | some e => (0, .error e)
  | none => loop W key al items []

end Verif.PileLoadKeys
