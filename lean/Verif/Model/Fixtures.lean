import Verif.Model.Graph
import Verif.Model.Flow

/-!
# Model of the factories of `src/lionherd_core/testing.py`

Fresh identifiers (`uuid4`) are parameters; in the theorems they are assumed to be distinct. Creation times and metadata are not modelled.
-/

namespace Verif.Fixtures

variable {ι ν ε : Type} [DecidableEq ι]

/-- Calls made one after the other; the first one that raises ends the function. Serves `simpleGraph` (`testing.py:351-377`). -/
def calls (g : Graph ι ν ε) : List (Graph.Op ι ν ε) → Except Exc (Graph ι ν ε)
  | [] => .ok g
  | op :: ops =>
    match Graph.step g op with
    | (g', .ok _) => calls g' ops
    | (_, .error e) => .error e

/-- `graph.add_node(Node(content={"value": v}))`. Serves `simpleGraph` (`testing.py:351-377`). -/
def node (id : ι) (v : ν) : Graph.Op ι ν ε := .addNode (some ⟨id, (), v⟩)

/-- `graph.add_edge(Edge(head=a, tail=b))`; `info` is what a fresh edge carries besides. Serves `simpleGraph` (`testing.py:351-377`). -/
def edge (info : ε) (id a b : ι) : Graph.Op ι ν ε := .addEdge (some ⟨id, (), ⟨a, b, info⟩⟩)

/-- `create_simple_graph`, `testing.py:351-377`. -/
def simpleGraph (info : ε) (value : String → ν) (a b c e f : ι) : Except Exc (Graph ι ν ε) :=
  calls {} [node a (value "A"), node b (value "B"), node c (value "C"), edge info e a b, edge info f b c]

/-- `create_cyclic_graph`, `testing.py:380-405`. -/
def cyclicGraph (info : ε) (value : String → ν) (a b c e f k : ι) : Except Exc (Graph ι ν ε) :=
  calls {} [node a (value "A"), node b (value "B"), node c (value "C"), edge info e a b, edge info f b c, edge info k c a]

/-- `create_dag_graph`, `testing.py:408-442`. -/
def dagGraph (info : ε) (value : String → ν) (a b c d e f k l : ι) : Except Exc (Graph ι ν ε) :=
  calls {} [node a (value "A"), node b (value "B"), node c (value "C"), node d (value "D"),
    edge info e a b, edge info f a c, edge info k b d, edge info l c d]

/-- The content of a `TestElement`, `testing.py:72-78`. -/
structure TestData where
  value : Int
  name : String
  deriving DecidableEq, Repr

variable {γ : Type} [DecidableEq γ]

/-- `create_test_elements(count, start_value)`, `testing.py:108-124`: `range` of a negative number is empty. `cls` is the class `TestElement`, `ids i`
the identifier drawn for the `i`-th element. -/
def testElements (cls : γ) (ids : Nat → ι) (count start : Int) : List (Item ι γ TestData) :=
  (List.range count.toNat).map (fun i => ⟨ids i, cls, ⟨start + i, "element_" ++ toString i⟩⟩)

/-- `create_test_pile(count, item_type=..., strict_type=...)`, `testing.py:283-305`. -/
def testPile (sub : γ → γ → Bool) (cls : γ) (ids : Nat → ι) (count : Int) (itemType : Option (List γ)) (strict : Bool) :
    Except Exc (Pile ι γ TestData) :=
  Pile.mk' sub ((testElements cls ids count 0).map some) itemType strict none

/-- `create_test_flow(item_count, progression_count)`, `testing.py:450-475`. -/
def testFlow (sub : γ → γ → Bool) (cls : γ) (ids pids : Nat → ι) (items progs : Int) : Except Exc (Flow ι γ TestData) :=
  match testPile sub cls ids items (some [cls]) false with
  | .error e => .error e
  | .ok p => Flow.mk' p ((List.range progs.toNat).map (fun i => ⟨pids i, (), ⟨some ("prog_" ++ toString i), []⟩⟩))

/-- `create_test_progression(items, name)`, `testing.py:483-505`, with the identifiers drawn if no items are given. -/
def testProgression {δ : Type} (cls : γ) (ids : Nat → ι) (items : Option (List (Item ι γ δ))) : List ι :=
  match items with
  | some l => l.map Item.id
  | none => (testElements cls ids 5 0).map Item.id

end Verif.Fixtures
