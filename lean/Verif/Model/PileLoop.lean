import Verif.Model.Pile

/-!
# Model of a `for` loop over a pile whose body changes the pile (`src/lionherd_core/base/pile.py:613-616`, `src/lionherd_core/base/progression.py:136-138`)

`__iter__` is a generator over `iter(self.order)`, Python's list iterator: it holds an index into the list itself, which `add`, `remove`, `pop`, `clear`, `include` and `exclude` change in
place, and ends when the index is not smaller than the present length.
-/

namespace Verif.PileLoop

variable {ι γ δ : Type} [DecidableEq ι] [DecidableEq γ]

/-- Where the loop is (`pile.py:613-616`). -/
inductive Phase where
  | running
  | finished
  | raised (e : Exc)
deriving DecidableEq, Repr

/-- The pile, the items the loop has visited so far (their number is the index of the list iterator), and the phase (`pile.py:613-616`). -/
structure Loop (ι γ δ : Type) where
  pile : Pile ι γ δ
  seen : List (Item ι γ δ) := []
  phase : Phase := .running

/-- The generator is resumed and finds id `u`, `pile.py:616`; then the body of the loop runs, which makes the calls `body seen x`. -/
def visit (sub : γ → γ → Bool) (body : List (Item ι γ δ) → Item ι γ δ → List (Pile.Op ι γ δ)) (s : Loop ι γ δ) (u : ι) : Loop ι γ δ :=
  match s.pile.items.get? u with
  | none => { s with phase := .raised .keyError }
  | some x => { s with pile := Pile.run sub s.pile (body s.seen x), seen := s.seen ++ [x] }

/-- One turn of the loop, `pile.py:615`: `next()` of the list iterator. -/
def turn (sub : γ → γ → Bool) (body : List (Item ι γ δ) → Item ι γ δ → List (Pile.Op ι γ δ)) (s : Loop ι γ δ) : Loop ι γ δ :=
  match s.phase with
  | .running =>
    match s.pile.order[s.seen.length]? with
    | none => { s with phase := .finished }
    | some u => visit sub body s u
  | _ => s

/-- `n` turns (`pile.py:613-616`). -/
def turns (sub : γ → γ → Bool) (body : List (Item ι γ δ) → Item ι γ δ → List (Pile.Op ι γ δ)) (p : Pile ι γ δ) : Nat → Loop ι γ δ
  | 0 => { pile := p }
  | n + 1 => turn sub body (turns sub body p n)

end Verif.PileLoop
