import Verif.Py.Space
import Verif.Py.Basic

/-!
# Model of the pruning in `src/lionherd_core/libs/schema_handlers/_minimal_yaml.py`

The YAML dumper and the JSON parser are not modelled.
-/

namespace Verif.Prune

/-- Containers. Serves the model of `_minimal_yaml.py:32-42`. -/
inductive Kind where
  | dict | list | tuple | set
  deriving DecidableEq, Repr

/-- Values.  A container holds a chain of items: `cons` for lists and tuples, `kcons` for dicts, `scons` for sets (in iteration order).
`other` is any value without special treatment (numbers, booleans, objects). Serves `isEmpty` (`_minimal_yaml.py:32-42`). -/
inductive Val (κ α : Type) where
  | none
  | str (s : List Char)
  | other (a : α)
  | coll (k : Kind) (items : Val κ α)
  | nil
  | cons (h t : Val κ α)
  | kcons (k : κ) (h t : Val κ α)
  | scons (h t : Val κ α)
  deriving DecidableEq, Repr

variable {κ α : Type} [DecidableEq κ] [DecidableEq α]

/-- The characters `str.strip` removes, `_minimal_yaml.py:37`. -/
def isWs (c : Char) : Bool := Py.isSpace c

/-- `_is_empty`, `_minimal_yaml.py:32-42`. -/
def isEmpty : Val κ α → Bool
  | .none => true
  | .str s => s.all isWs
  | .coll _ .nil => true
  | _ => false

/-- Membership in a set's chain; equality of values is identity of their models. Serves the model of `_minimal_yaml.py:45-67`. -/
def smem (x : Val κ α) : Val κ α → Bool
  | .scons h t => decide (h = x) || smem x t
  | _ => false

/-- Adding to a set. Serves `prune` (`_minimal_yaml.py:45-67`). -/
def sinsert (x t : Val κ α) : Val κ α := if smem x t then t else .scons x t

/-- `_prune`, `_minimal_yaml.py:45-67`.  On a chain: both filters of the code, the one before and the one after pruning the item, and for sets the merging of
items that became equal. -/
def prune : Val κ α → Val κ α
  | .coll k items => .coll k (prune items)
  | .cons h t => if isEmpty h then prune t else if isEmpty (prune h) then prune t else .cons (prune h) (prune t)
  | .kcons k h t => if isEmpty h then prune t else if isEmpty (prune h) then prune t else .kcons k (prune h) (prune t)
  | .scons h t => if isEmpty h then prune t else if isEmpty (prune h) then prune t else sinsert (prune h) (prune t)
  | v => v

end Verif.Prune
