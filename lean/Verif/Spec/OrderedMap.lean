import Verif.Model.Pile

/-!
# Specification: an insertion-ordered map of items

The abstract object a `Pile` is supposed to be: a list of items (in order), addressed by their ids.
Only the vocabulary of calls and results (`Pile.Op`, `Pile.Out`) is shared with the model.
-/

namespace Verif.OMap

variable {ι γ δ : Type} [DecidableEq ι] [DecidableEq γ]

/-- An item satisfies a type constraint: there is none, or (strict) its class is one of the allowed ones,
or (non-strict) its class is a subclass of an allowed one. -/
def Satisfies (sub : γ → γ → Bool) (itemType : Option (List γ)) (strict : Bool) (x : Item ι γ δ) : Prop :=
  ∀ ts, itemType = some ts → if strict then x.cls ∈ ts else ∃ t ∈ ts, sub x.cls t = true

/-- Item with id `u`, if any. -/
def lookup (l : List (Item ι γ δ)) (u : ι) : Option (Item ι γ δ) := l.find? (fun x => x.id = u)

/-- The items whose id is not `u`. -/
def without (l : List (Item ι γ δ)) (u : ι) : List (Item ι γ δ) := l.filter (fun x => x.id ≠ u)

/-- `x` put in the place of the item with the same id. -/
def replace (l : List (Item ι γ δ)) (x : Item ι γ δ) : List (Item ι γ δ) :=
  l.map (fun y => if y.id = x.id then x else y)

/-- One call on the abstract map. `ok x` tells whether item `x` satisfies the type constraint. -/
def step (ok : Item ι γ δ → Bool) (l : List (Item ι γ δ)) :
    Pile.Op ι γ δ → List (Item ι γ δ) × Except Exc (Pile.Out ι γ δ)
  | .add none => (l, .error .typeError)
  | .add (some x) =>
    if ok x = false then (l, .error .typeError)
    else if (lookup l x.id).isSome then (l, .error .exists_)
    else (l ++ [x], .ok .unit)
  | .remove none => (l, .error .valueError)
  | .remove (some u) =>
    match lookup l u with
    | none => (l, .error .notFound)
    | some x => (without l u, .ok (.item x))
  | .pop none _ => (l, .error .valueError)
  | .pop (some u) d =>
    match lookup l u with
    | none => (l, if d then .ok .default else .error .notFound)
    | some x => (without l u, .ok (.item x))
  | .get none _ => (l, .error .valueError)
  | .get (some u) d =>
    match lookup l u with
    | none => (l, if d then .ok .default else .error .notFound)
    | some x => (l, .ok (.item x))
  | .update none => (l, .error .typeError)
  | .update (some x) =>
    if ok x = false then (l, .error .typeError)
    else if (lookup l x.id).isSome then (replace l x, .ok .unit)
    else (l, .error .notFound)
  | .clear => ([], .ok .unit)
  | .include_ none => (l, .ok (.flag false))
  | .include_ (some x) =>
    if (lookup l x.id).isSome then (l, .ok (.flag true))
    else if ok x = false then (l, .ok (.flag false))
    else (l ++ [x], .ok (.flag true))
  | .exclude none => (l, .ok (.flag false))
  | .exclude (some u) => (without l u, .ok (.flag true))
  | .contains none => (l, .ok (.flag false))
  | .contains (some u) => (l, .ok (.flag (lookup l u).isSome))
  | .len => (l, .ok (.nat l.length))
  | .iter => (l, .ok (.list l))

end Verif.OMap
