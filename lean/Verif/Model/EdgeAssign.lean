import Verif.Model.Graph

/-! # Assigning new end points to the edges of a graph

`Edge.head` and `Edge.tail` are ordinary fields; `edge.head = n` validates the value and changes the edge object, which a graph shares.  The graph is not told.  An assignment to a
field of the graph itself (`graph.metadata = …`) runs its validators, one of which rebuilds the adjacency. -/

namespace Verif.Graph

variable {ι ν ε : Type} [DecidableEq ι]

/-- `edge.head = h; edge.tail = t` for the stored edge with id `e`, `graph.py:71-72`, `element.py:40-45` (`validate_assignment`). -/
def assignEnds (g : Graph ι ν ε) (e h t : ι) : Graph ι ν ε :=
  match g.edges.items.get? e with
  | none => g
  | some x => { g with edges := { g.edges with items := g.edges.items.set e { x with data := { x.data with head := h, tail := t } } } }

/-- An assignment to a field of the graph: `_rebuild_adjacency_after_init`, `graph.py:132-150`. -/
def refresh (g : Graph ι ν ε) : Graph ι ν ε :=
  match mk' g.nodes g.edges with
  | .ok g' => g'
  | .error _ => g

/-- A call of a method, an assignment to the ends of a stored edge, or to a field of the graph. Built on `graph.py:71-150`. -/
inductive EAct (ι ν ε : Type) where
  | op (o : Op ι ν ε)
  | assign (e h t : ι)
  | refresh

/-- One step. Built on `graph.py:71-150`. -/
def eStep (g : Graph ι ν ε) : EAct ι ν ε → Graph ι ν ε
  | .op o => (step g o).1
  | .assign e h t => assignEnds g e h t
  | .refresh => refresh g

/-- A history. Built on `graph.py:71-150`. -/
def eRun (g : Graph ι ν ε) (as : List (EAct ι ν ε)) : Graph ι ν ε := as.foldl eStep g

end Verif.Graph
