import Verif.Py.Basic

/-!
# Model of the `exclude` argument of the `to_dict` methods

`element.py:96-157`, `pile.py:152-208`, `flow.py:302-338`, `graph.py:425-471`, `node.py:149-226` (all in `src/lionherd_core/base`).
Only the names of the fields in the output are modelled, under their own names (renaming of "metadata" by `meta_key` is left out).
-/

namespace Verif.Exclude

/-- The argument: not given, None, a set of names, a dict (name, and whether the whole field is excluded: `{"metadata": {"x"}}` excludes only a part), or a list.
Serves `merged` (`flow.py:315-319`). -/
inductive Excl where
  | absent
  | none
  | set (names : List String)
  | dict (entries : List (String × Bool))
  | list (names : List String)
  deriving DecidableEq

/-- The names whose whole field is dropped by `model_dump(exclude=...)`; pydantic accepts only None, sets and dicts.
Serves the model of `pile.py:171-208`. -/
def dropped : Excl → Except Exc (List String)
  | .absent => .ok []
  | .none => .ok []
  | .set ns => .ok ns
  | .dict es => .ok ((es.filter (fun e => e.2)).map Prod.fst)
  | .list _ => .error .typeError

/-- `Element.to_dict(exclude=...)`: the remaining fields. Serves `pile` (`pile.py:171-208`). -/
def element (fields : List String) (e : Excl) : Except Exc (List String) :=
  match dropped e with
  | .error x => .error x
  | .ok ns => .ok (fields.filter (fun f => !ns.contains f))

/-- The merged exclusion of `Flow.to_dict` and `Graph.to_dict`, `flow.py:315-319`, `graph.py:445-449`: a set gets the names added, everything else is turned into a set of
names first (which raises for None). -/
def merged (forced : List String) : Excl → Except Exc Excl
  | .absent => .ok (.set forced)
  | .none => .error .typeError
  | .set ns => .ok (.set (ns ++ forced))
  | .dict es => .ok (.set (es.map Prod.fst ++ forced))
  | .list ns => .ok (.set (ns ++ forced))

/-- Writing entries `data[name] = ...` into the output. Serves `pile` (`pile.py:171-208`). -/
def addAll (forced : List String) : Except Exc (List String) → Except Exc (List String)
  | .ok fs => .ok (fs ++ forced.filter (fun f => !fs.contains f))
  | .error x => .error x

/-- `Flow.to_dict` (`forced` are "items" and "progressions") and `Graph.to_dict` ("nodes", "edges"). Built on `merged` (`flow.py:315-319`). -/
def container (forced fields : List String) (e : Excl) : Except Exc (List String) :=
  match merged forced e with
  | .error x => .error x
  | .ok m => addAll forced (element fields m)

/-- `Pile.to_dict`, `pile.py:171-208`: "items" is not a field of the class and is always written. -/
def pile (fields : List String) (e : Excl) : Except Exc (List String) := addAll ["items"] (element fields e)

/-- The exclusion of `Node.to_dict` with a `content_serializer`, `node.py:194-204`. -/
def nodeExcl : Excl → Excl
  | .absent => .set ["content"]
  | .none => .set ["content"]
  | .set ns => .set (ns ++ ["content"])
  | .dict es => .dict (es.filter (fun e => e.1 != "content") ++ [("content", true)])
  | .list _ => .set ["content"]

/-- `Node.to_dict`, `node.py:149-226`; with a serializer the content is written afterwards. -/
def node (serializer : Bool) (fields : List String) (e : Excl) : Except Exc (List String) :=
  if serializer then addAll ["content"] (element fields (nodeExcl e)) else element fields e

/-- The classes that override `to_dict`. Built on `pile` (`pile.py:171-208`). -/
inductive Kind where
  | element | pile | flow | graph | node | nodeSerializer
  deriving DecidableEq

/-- The names in the output of `to_dict(exclude=e)`. Built on `pile` (`pile.py:171-208`). -/
def toDictNames (fields : List String) : Kind → Excl → Except Exc (List String)
  | .element, e => element fields e
  | .pile, e => pile fields e
  | .flow, e => container ["items", "progressions"] fields e
  | .graph, e => container ["nodes", "edges"] fields e
  | .node, e => node false fields e
  | .nodeSerializer, e => node true fields e

end Verif.Exclude
