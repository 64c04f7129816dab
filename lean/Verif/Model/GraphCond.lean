import Verif.Model.Graph

/-!
# Edge conditions in `find_path` (`base/graph.py:41-89`, `398-400`)

The conditions are `async` callables; simplified to the answer they give, which is taken not to change during the search.
-/

namespace Verif.Graph

variable {ι ν ε : Type} [DecidableEq ι]

/-- `Edge.check_condition`, `graph.py:85-89`; `c` reads the field `condition` (`graph.py:74-76`) and gives the answer of its `apply`, `none`
where the field is `None`. -/
def checkCondition (c : ε → Option Bool) (x : ε) : Bool := (c x).getD true

/-- The test `check_conditions and not await edge.check_condition()` of `find_path`, `graph.py:396-400`, negated; an unknown id is
answered `True` (the search then fails on looking the edge up, `graph.py:394`). -/
def edgePasses (check : Bool) (c : ε → Option Bool) (g : Graph ι ν ε) (u : ι) : Bool :=
  !(check && !(((g.edges.items.get? u).map (fun e => checkCondition c e.data.info)).getD true))

/-- `find_path(start, end, check_conditions)`, `graph.py:361-406`. -/
def findPathCond (o : SetOrder ι) (g : Graph ι ν ε) (check : Bool) (c : ε → Option Bool) (start goal : Ref ι) (fuel : Nat) :
    Option (Except Exc (Option (List (Item ι Unit (EdgeData ι ε))))) :=
  findPath o g (edgePasses check c g) start goal fuel

end Verif.Graph
