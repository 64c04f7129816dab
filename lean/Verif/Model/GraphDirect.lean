import Verif.Model.EdgeAssign

/-! # Calls on the piles of a graph

`Graph.nodes` and `Graph.edges` are public fields holding piles; a call on one of them (`graph.nodes.remove(n)`, `graph.edges.add(e)`) changes what the graph holds.  The adjacency of the
graph is private and is not told. -/

namespace Verif.Graph

variable {ι ν ε : Type} [DecidableEq ι]

/-- A call on the pile of nodes or on the pile of edges. Serves the model of `graph.py:108-118`. -/
inductive DAct (ι ν ε : Type) where
  | node (o : Pile.Op ι Unit ν)
  | edge (o : Pile.Op ι Unit (EdgeData ι ε))

/-- One such call: the pile changes, `_out_edges` and `_in_edges` do not, `graph.py:108-118` with `pile.py:213-355`. -/
def dStep (g : Graph ι ν ε) : DAct ι ν ε → Graph ι ν ε
  | .node o => { g with nodes := (Pile.step anySub g.nodes o).1 }
  | .edge o => { g with edges := (Pile.step anySub g.edges o).1 }

/-- Several such calls. Built on `graph.py:108-118`. -/
def dRun (g : Graph ι ν ε) (ds : List (DAct ι ν ε)) : Graph ι ν ε := ds.foldl dStep g

end Verif.Graph
