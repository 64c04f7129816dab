import Verif.Py.Basic

/-!
# Model of the classes of elements in elements, written and read again

`to_dict` writes the class of every element into its metadata (`src/lionherd_core/base/element.py:95-103`); which class reads a part again depends on where it is: items of a pile are read by
`Element.from_dict` (`base/pile.py:757-759`), the piles of a graph by `Pile.from_dict` (`base/graph.py:499-511`, `:123-131`), the piles of a flow by its field validator (`base/flow.py:104-114`), the outermost
data by the class whose `from_dict` was called.

Only classes and structure are modelled; the other data are those of `Verif.Model.Element`, `ContainerKeys` and `FlowSerial`. Simplifications: data of another shape than the class reading them are refused
(unknown fields); subclasses do not define `from_dict` themselves; no type constraints; a tag that cannot be loaded and one that is no element class are not distinguished; content of nodes is left out.
-/

namespace Verif.ClassTree

/-- What a class derives from: `Pile`, `Graph`, `Flow`, `Node`, or only `Element`. Serves `finish` (`element.py:205-214`). -/
inductive Kind where
  | plain
  | node
  | pile
  | graph
  | flow
  deriving DecidableEq, Repr

/-- An element: its class, and the elements in it (items of a pile; the two piles of a graph or flow). Serves `save` (`pile.py:186-207`, `graph.py:459-472`). -/
inductive Obj (γ : Type) where
  | mk (cls : γ) (kids : List (Obj γ))

/-- A serialised element: the fields it has, the class tag, the serialised elements in it. Serves `save` (`element.py:99-101`). -/
inductive Data where
  | mk (shape : Kind) (tag : String) (kids : List Data)

/-- Classes: kinds, full names, the classes `Element` and `Pile`, `load_type_from_string`, and `NODE_REGISTRY` (under a name or its last part). Serves `target` (`element.py:191-203`, `node.py:279-282`). -/
structure World (γ : Type) where
  kind : γ → Kind
  name : γ → String
  element : γ
  pile : γ
  load : String → Option γ
  registered : String → Option γ

/-- Exceptions that matter. Serves `itemFrom` (`element.py:161-214`). -/
inductive Err where
  | value
  | validation
  deriving DecidableEq, Repr

variable {γ : Type} [DecidableEq γ]

/-- The class of an element. Serves `save` (`element.py:99-101`). -/
def Obj.cls : Obj γ → γ
  | .mk c _ => c

mutual
/-- `to_dict`, `element.py:95-103`, `pile.py:186-207`, `graph.py:459-472`. -/
def save (W : World γ) : Obj γ → Data
  | .mk c kids => .mk (W.kind c) (W.name c) (saveAll W kids)
/-- `to_dict` of every element in an element, `pile.py:186-207`, `graph.py:459-472`. -/
def saveAll (W : World γ) : List (Obj γ) → List Data
  | [] => []
  | o :: os => save W o :: saveAll W os
end

/-- The class that `Element.from_dict` chooses, called on `B`, `element.py:191-203`. -/
def target (W : World γ) (B : γ) (tag : String) : Option γ := if tag = W.name B then some B else W.load tag

/-- The class that `Node.from_dict` chooses, called on `B`, `node.py:279-288`. -/
def nodeTarget (W : World γ) (B : γ) (tag : String) : γ := if tag = W.name B then B else (W.registered tag).getD B

/-- Which of the two ways of reading the parts is used by a class of the kind. Serves `finish` (`pile.py:757-759`, `graph.py:499-511`, `flow.py:104-114`). -/
def pick (k : Kind) (items piles : Except Err (List (Obj γ))) : Except Err (List (Obj γ)) :=
  if k = .pile then items else if k = .graph ∨ k = .flow then piles else .ok []

/-- Building an element of class `c` from its parts. Serves `itemFrom` (`element.py:205-214`). -/
def finish (W : World γ) (shape : Kind) (items piles : Except Err (List (Obj γ))) (c : γ) : Except Err (Obj γ) :=
  if W.kind c = shape then (pick shape items piles).map (.mk c) else .error .validation

/-- Building an element of the class found, if there is one. Serves `itemFrom` (`element.py:194-214`). -/
def finishAt (W : World γ) (shape : Kind) (items piles : Except Err (List (Obj γ))) : Option γ → Except Err (Obj γ)
  | none => .error .value
  | some c => finish W shape items piles c

mutual
/-- `Element.from_dict(item_dict)`, `element.py:161-214`, `pile.py:758`. -/
def itemFrom (W : World γ) : Data → Except Err (Obj γ)
  | .mk shape tag kids => finishAt W shape (itemsFrom W kids) (pilesFrom W kids) (target W W.element tag)
/-- The loop over the items, `pile.py:757-759`. -/
def itemsFrom (W : World γ) : List Data → Except Err (List (Obj γ))
  | [] => .ok []
  | d :: ds => (itemFrom W d).bind fun o => (itemsFrom W ds).bind fun os => .ok (o :: os)
/-- `Pile.from_dict(nodes_data)`, `pile.py:671-761`: the tag is not looked at. -/
def pileFrom (W : World γ) : Data → Except Err (Obj γ)
  | .mk shape _tag kids => if shape = .pile then (itemsFrom W kids).map (.mk W.pile) else .error .validation
/-- The piles of a graph or flow, `graph.py:499-511`, `flow.py:104-114`. -/
def pilesFrom (W : World γ) : List Data → Except Err (List (Obj γ))
  | [] => .ok []
  | d :: ds => (pileFrom W d).bind fun o => (pilesFrom W ds).bind fun os => .ok (o :: os)
end

/-- The class that reads the outermost data: `Pile.from_dict` and `Graph.from_dict` (`pile.py:748`, `graph.py:514`) use the class they are called on; the others as above. -/
def rootTarget (W : World γ) (B : γ) (tag : String) : Option γ :=
  if W.kind B = .pile ∨ W.kind B = .graph then some B else if W.kind B = .node then some (nodeTarget W B tag) else target W B tag

/-- `B.from_dict(data)`, `element.py:161-214`, `node.py:226-288`, `pile.py:671-761`, `graph.py:475-516`. -/
def fromDict (W : World γ) (B : γ) : Data → Except Err (Obj γ)
  | .mk shape tag kids => finishAt W shape (itemsFrom W kids) (pilesFrom W kids) (rootTarget W B tag)

end Verif.ClassTree
