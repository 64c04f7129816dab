import Verif.Py.Sort

/-!
# Model of `src/lionherd_core/ln/_hash.py`

Data are trees over atoms (primitives and other values that are compared as a whole).  Elements of sets are atoms: a frozenset or tuple inside a
set is an atom there.  `hash` of the representation is a parameter.
-/

namespace Verif.HashDict

/-- The kinds of collections `_generate_hashable_representation` distinguishes. Serves the model of `_hash.py:26-105`. -/
inductive Coll where
  | dict | list | tuple | set | frozenset | model
  deriving DecidableEq, Repr

/-- Nested data.  Collections hold a chain: `lcons` for lists and tuples, `dcons` for dict entries (also of dumped models), `scons` for set
elements in iteration order. Serves `rep` (`_hash.py:26-105`). -/
inductive Data (α : Type) where
  | atom (a : α)
  | coll (c : Coll) (items : Data α)
  | nil
  | lcons (h t : Data α)
  | dcons (k : α) (v t : Data α)
  | scons (a : α) (t : Data α)
  deriving DecidableEq, Repr

/-- Hashable representations: nested tuples. Serves `rep` (`_hash.py:26-105`). -/
inductive Rep (β σ : Type) where
  | leaf (b : β)
  | node (marker : Nat) (items : Rep β σ)
  | nil
  | cons (h t : Rep β σ)
  | kcons (k : σ) (v t : Rep β σ)
  deriving DecidableEq, Repr

/-- What the code asks of atoms: `prim` the value as it enters the hash (up to `==`), `str`, the order of strings, `<=` on atoms where it is defined
(`cmp`), and the order by `(str(type(x)), str(x))`. Serves `sortSet` (`_hash.py:66-77`). -/
structure Ops (α β σ : Type) where
  prim : α → β
  str : α → σ
  strLe : σ → σ → Bool
  cmp : α → α → Bool
  le : α → α → Bool
  typeLe : α → α → Bool

variable {α β σ : Type}

/-- Entry of a new item into the sorted items of a dict. Serves `rep` (`_hash.py:26-105`). -/
def insertKey (le : σ → σ → Bool) (k : σ) (r : Rep β σ) : Rep β σ → Rep β σ
  | .kcons k' r' t => if le k k' then .kcons k r (.kcons k' r' t) else .kcons k' r' (insertKey le k r t)
  | x => .kcons k r x

/-- The elements of a set, in iteration order. Serves `rep` (`_hash.py:26-105`). -/
def elems : Data α → List α
  | .scons a t => a :: elems t
  | _ => []

/-- Can all pairs be compared?  Simplification: Python finds out from the comparisons it makes. Serves `sortSet` (`_hash.py:66-77`). -/
def comparable (O : Ops α β σ) (l : List α) : Bool := l.all (fun a => l.all (fun b => O.cmp a b))

/-- Sorting of a set's elements, `_hash.py:66-77` and `83-92`. -/
def sortSet (O : Ops α β σ) (l : List α) : List α := if comparable O l then sortBy O.le l else sortBy O.typeLe l

/-- The representations of sorted elements. Serves `rep` (`_hash.py:26-105`). -/
def atomsRep (O : Ops α β σ) : List α → Rep β σ
  | [] => .nil
  | a :: l => .cons (.leaf (O.prim a)) (atomsRep O l)

/-- `_generate_hashable_representation`, `_hash.py:26-105`, with the type markers of `_hash.py:18-23`.  The items of a dict are sorted by insertion. -/
def rep (O : Ops α β σ) : Data α → Rep β σ
  | .atom a => .leaf (O.prim a)
  | .coll .dict s => .node 0 (rep O s)
  | .coll .list s => .node 1 (rep O s)
  | .coll .tuple s => .node 2 (rep O s)
  | .coll .set s => .node 3 (atomsRep O (sortSet O (elems s)))
  | .coll .frozenset s => .node 4 (atomsRep O (sortSet O (elems s)))
  | .coll .model s => .node 5 (.node 0 (rep O s))
  | .nil => .nil
  | .lcons h t => .cons (rep O h) (rep O t)
  | .dcons k v t => insertKey O.strLe (O.str k) (rep O v) (rep O t)
  | .scons _ t => rep O t

/-- `hash_dict`, `_hash.py:108-141`; `deepcopy` under `strict` does not change the data. -/
def hashDict (O : Ops α β σ) (hash : Rep β σ → Int) (x : Data α) : Int := hash (rep O x)

end Verif.HashDict
