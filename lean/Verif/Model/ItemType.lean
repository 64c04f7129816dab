import Verif.Model.Pile

/-!
# Model of `extract_types` (`src/lionherd_core/base/_utils.py:132-183`) and of the `item_type` arguments of `Pile` and `Flow`

Sets of types are lists of which only the members matter.
-/

namespace Verif.ItemType

open Pile (Arg)

variable {ι γ δ : Type} [DecidableEq ι] [DecidableEq γ]

/-- A type expression: a class, or a union of classes (`A | B`, `Union[A, B]`; Python flattens nested unions itself).
Serves `addExpr` (`_utils.py:164-167`). -/
inductive Expr (γ : Type) where
  | one (t : γ)
  | union (ts : List γ)
  deriving DecidableEq

/-- An `item_type` argument. Serves `extractTypes` (`_utils.py:132-183`). -/
inductive TypeArg (γ : Type) where
  | expr (e : Expr γ)
  | list (es : List (Expr γ))
  | set (es : List (Expr γ))
  deriving DecidableEq

/-- `extracted.update(get_args(t))` or `extracted.add(t)`, `_utils.py:164-167`. -/
def addExpr (acc : List γ) : Expr γ → List γ
  | .one t => acc ++ [t]
  | .union ts => acc ++ ts

/-- `extract_types`, `_utils.py:132-183`. -/
def extractTypes : TypeArg γ → List γ
  | .expr (.one t) => [t]
  | .expr (.union ts) => ts
  | .list es => es.foldl addExpr []
  | .set es => es.foldl addExpr []

/-- `Pile._normalize_item_type`, `pile.py:91-103`, without the names of types (`Pile.loadTypes`). -/
def pileType (a : Option (TypeArg γ)) : Option (List γ) := a.map extractTypes

/-- `if item_type`: an empty list or set is falsy. Serves `flowType` (`flow.py:76`). -/
def truthy : TypeArg γ → Bool
  | .expr _ => true
  | .list es => !es.isEmpty
  | .set es => !es.isEmpty

/-- The normalisation in `Flow.__init__`, `flow.py:76`; the result is passed to `Pile`. -/
def flowType : Option (TypeArg γ) → Option (List γ)
  | none => none
  | some a => if truthy a then some (extractTypes a) else none

/-- `Pile(items, item_type=a, strict_type=strict)`, `pile.py:106-140`. -/
def mkPile (sub : γ → γ → Bool) (items : List (Arg ι γ δ)) (a : Option (TypeArg γ)) (strict : Bool) : Except Exc (Pile ι γ δ) :=
  Pile.mk' sub items (pileType a) strict none

/-- `pile.filter_by_type(a)`, `pile.py:529-580`. -/
def filterBy (sub : γ → γ → Bool) (p : Pile ι γ δ) (a : TypeArg γ) : Except Exc (Pile ι γ δ) := Pile.filterByType sub p (extractTypes a)

end Verif.ItemType
