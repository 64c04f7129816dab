import Verif.Model.Flow

/-! # Changing what a flow holds without asking the flow

The progressions and the items pile of a flow are ordinary objects; a caller who holds one can rename a progression (`prog.name = …`), change its order with its own methods
(`prog.append`, `prog.order = …`) or call the methods of `flow.items`.  The flow is not told. -/

namespace Verif.Flow

variable {ι γ δ : Type} [DecidableEq ι] [DecidableEq γ]

/-- `prog.name = n` for the stored progression `u`, `progression.py:26-35`, `element.py:40-45`. -/
def rename (pp : Pile ι Unit (ProgData ι)) (u : ι) (n : Option String) : Pile ι Unit (ProgData ι) :=
  match pp.items.get? u with
  | none => pp
  | some p => { pp with items := pp.items.set u { p with data := { p.data with name := n } } }

/-- A call of a method of the flow, an assignment to the name or the order of a stored progression, or a call of a method of its items pile. Built on `flow.py:38-52`. -/
inductive FAct (ι γ δ : Type) where
  | op (o : Op ι γ δ)
  | rename (u : ι) (n : Option String)
  | edit (u : ι) (order : List ι)
  | items (o : Pile.Op ι γ δ)

/-- One step. Built on `flow.py:38-52`. -/
def fStep (sub : γ → γ → Bool) (f : Flow ι γ δ) : FAct ι γ δ → Flow ι γ δ
  | .op o => (step sub f o).1
  | .rename u n => { f with progs := rename f.progs u n }
  | .edit u order => { f with progs := modify f.progs u (fun _ => order) }
  | .items o => { f with items := (Pile.step sub f.items o).1 }

/-- A history. Built on `flow.py:38-52`. -/
def fRun (sub : γ → γ → Bool) (f : Flow ι γ δ) (as : List (FAct ι γ δ)) : Flow ι γ δ := as.foldl (fStep sub) f

end Verif.Flow
