import Verif.Model.FlowSerial
import Verif.Model.FlowEdit
import Verif.Model.ItemType

/-! # The `items`, `item_type` and `strict_type` arguments of `Flow(...)` (`src/lionherd_core/base/flow.py:53-121`) -/

namespace Verif.Flow

open ItemType (TypeArg flowType)

variable {ι γ δ : Type} [DecidableEq ι] [DecidableEq γ]

/-- The `items` argument, by the cases of `flow.py:79-97`: missing, one `Element`, a `Pile`, a serialised pile, a list whose first member is a dict (`dicts`; later
members may be anything), any other list (members that are no `Element` are `none`). -/
inductive ItemsArg (ι γ δ D : Type) where
  | absent
  | one (x : Item ι γ δ)
  | pile (p : Pile ι γ δ)
  | dict (d : KPile D)
  | dicts (d : D) (ds : List (D ⊕ Pile.Arg ι γ δ))
  | list (xs : List (Pile.Arg ι γ δ))

/-- One member of a list: `Element.from_dict(item)` for a dict, the object itself otherwise, `flow.py:116-119`. -/
def member {D : Type} (dec : D → Except Exc (Item ι γ δ)) : D ⊕ Pile.Arg ι γ δ → Except Exc (Pile.Arg ι γ δ)
  | .inr a => .ok a
  | .inl d => (dec d).map some

/-- The loop of `_validate_piles` over a list, `flow.py:113-120`. -/
def addMembers {D : Type} (sub : γ → γ → Bool) (dec : D → Except Exc (Item ι γ δ)) (p : Pile ι γ δ) :
    List (D ⊕ Pile.Arg ι γ δ) → Except Exc (Pile ι γ δ)
  | [] => .ok p
  | m :: ms =>
    match member dec m with
    | .error e => .error e
    | .ok a =>
      match Pile.add sub p a with
      | (p', .ok ()) => addMembers sub dec p' ms
      | (_, .error e) => .error e

/-- The items pile that `Flow(items, item_type=t, strict_type=s)` makes, `flow.py:75-97` and `_validate_piles`, `flow.py:103-121`; without `items`, `item_type` and
`strict_type` it is the default `Pile()` (`flow.py:46-49`). -/
def itemsPile {D P : Type} (sub : γ → γ → Bool) (C : Codec ι γ δ D P) (t : Option (TypeArg γ)) (s : Bool) :
    ItemsArg ι γ δ D → Except Exc (Pile ι γ δ)
  | .absent => if (flowType t).isSome || s then Pile.mk' sub [] (flowType t) s none else .ok {}
  | .one x => Pile.mk' sub [some x] (flowType t) s none
  | .pile p => .ok p
  | .dict d => pileFrom sub C.load C.lionClass C.dec d
  | .dicts d ds => addMembers sub C.dec {} (.inl d :: ds)
  | .list xs => Pile.mk' sub xs (flowType t) s none

/-- `Flow(items, progressions=[...], item_type=t, strict_type=s)`, `flow.py:53-152`.  Simplified: an exception of a progression is raised after one of the items. -/
def init {D P : Type} (sub : γ → γ → Bool) (C : Codec ι γ δ D P) (t : Option (TypeArg γ)) (s : Bool) (a : ItemsArg ι γ δ D)
    (progs : List (Prog ι)) : Except Exc (Flow ι γ δ) :=
  match itemsPile sub C t s a with
  | .error e => .error e
  | .ok ip => mk' ip progs

end Verif.Flow
