import Verif.Model.Sync
import Verif.Model.Graph

/-!
# Model of the `@synchronized` methods of `Pile` and `Graph` as seen by several threads

`src/lionherd_core/base/pile.py:212-324, 595-606` and `graph.py:178-248`: the same methods as in `Verif/Model/Pile.lean` and
`Verif/Model/Graph.lean`, but cut into the single reads and writes another thread could observe, with the locks they take: `Pile` methods the lock of
the pile, `Graph` methods the lock of the graph and inside it the locks of the two piles.

Locks are numbered: 0 is the graph, 1 its nodes, 2 its edges.
-/

namespace Verif.Sync

variable {σ α β P : Type}

/-- One atomic step with a result. Serves `addBody` (`pile.py:213-229`). -/
def act (f : σ → σ × β) : Prog σ β := .atomic (fun s => (f s).1) (fun s => .ret (f s).2)

/-- What follows a step that may raise. Serves the model of `pile.py:213-229`. -/
def onOk (k : β → Prog σ (Except Exc α)) : Except Exc β → Prog σ (Except Exc α)
  | .error e => .ret (.error e)
  | .ok b => k b

/-- Sequencing of steps that may raise. Serves `addBody` (`pile.py:213-229`). -/
def andThen (p : Prog σ (Except Exc β)) (k : β → Prog σ (Except Exc α)) : Prog σ (Except Exc α) := p.bind (onOk k)

/-- A pile inside the shared object, with its lock. Serves `addBody` (`pile.py:213-229`). -/
structure Part (σ P : Type) where
  lock : Nat
  get : σ → P
  put : P → σ → σ

/-- A function on a part, lifted to the whole. Serves the model of `pile.py:213-229`. -/
def Part.lift (L : Part σ P) (f : P → P × β) (s : σ) : σ × β := (L.put (f (L.get s)).1 s, (f (L.get s)).2)

/-- One atomic step on a part. Serves `addBody` (`pile.py:213-229`). -/
def Part.act (L : Part σ P) (f : P → P × β) : Prog σ β := Sync.act (L.lift f)

/-- The whole object. Part of the model of `src/lionherd_core/base/pile.py:212-324, 595-606`. -/
def whole (l : Nat) : Part P P := ⟨l, fun s => s, fun p _ => p⟩

end Verif.Sync

namespace Verif.PileSync

open Verif.Sync

variable {ι γ δ σ α : Type} [DecidableEq ι] [DecidableEq γ]

/-- The checks of `add`, `pile.py:223-226`. -/
def addCheck (sub : γ → γ → Bool) (a : Pile.Arg ι γ δ) (p : Pile ι γ δ) : Res (Pile ι γ δ) (Item ι γ δ) :=
  match a with
  | none => (p, .error .typeError)
  | some x =>
    if Pile.validType sub p.itemType p.strict x = false then (p, .error .typeError)
    else if p.items.has x.id then (p, .error .exists_)
    else (p, .ok x)

/-- `self._items[item.id] = item`, `pile.py:228`. -/
def putItem (x : Item ι γ δ) (p : Pile ι γ δ) : Res (Pile ι γ δ) Unit := ({ p with items := p.items.set x.id x }, .ok ())

/-- `self._progression.append(item.id)`, `pile.py:229`. -/
def appendId (x : Item ι γ δ) (p : Pile ι γ δ) : Res (Pile ι γ δ) Unit := ({ p with order := p.order ++ [x.id] }, .ok ())

/-- The body of `add`, `pile.py:213-229`. -/
def addBody (L : Part σ (Pile ι γ δ)) (sub : γ → γ → Bool) (a : Pile.Arg ι γ δ) : Prog σ (Except Exc Unit) :=
  andThen (L.act (addCheck sub a)) (fun x => andThen (L.act (putItem x)) (fun _ => L.act (appendId x)))

/-- `self._items.pop(uid)`, `pile.py:246-249`. -/
def popItem (r : Ref ι) (p : Pile ι γ δ) : Res (Pile ι γ δ) (ι × Item ι γ δ) :=
  match r with
  | none => (p, .error .valueError)
  | some uid =>
    match p.items.get? uid with
    | none => (p, .error .notFound)
    | some x => ({ p with items := p.items.del uid }, .ok (uid, x))

/-- `self._progression.remove(uid)`, `pile.py:251`; returns the item. -/
def removeId (u : ι × Item ι γ δ) (p : Pile ι γ δ) : Res (Pile ι γ δ) (Item ι γ δ) :=
  match Progression.remove p.order (some u.1) with
  | (o, .ok ()) => ({ p with order := o }, .ok u.2)
  | (o, .error e) => ({ p with order := o }, .error e)

/-- The body of `remove`, `pile.py:232-252`. -/
def removeBody (L : Part σ (Pile ι γ δ)) (r : Ref ι) : Prog σ (Except Exc (Item ι γ δ)) :=
  andThen (L.act (popItem r)) (fun u => L.act (removeId u))

/-- `self._items.pop(uid)` with the default of `pop`, `pile.py:268-274`. -/
def popItemD (r : Ref ι) (d : Bool) (p : Pile ι γ δ) : Res (Pile ι γ δ) (Option (ι × Item ι γ δ)) :=
  match r with
  | none => (p, .error .valueError)
  | some uid =>
    match p.items.get? uid with
    | none => (p, if d then .ok none else .error .notFound)
    | some x => ({ p with items := p.items.del uid }, .ok (some (uid, x)))

/-- An item is returned as such. Serves `popRest` (`pile.py:275-277`). -/
def someItem (x : Item ι γ δ) : Prog σ (Except Exc (Option (Item ι γ δ))) := .ret (.ok (some x))

/-- The second half of `pop`, `pile.py:275-277`. -/
def popRest (L : Part σ (Pile ι γ δ)) : Option (ι × Item ι γ δ) → Prog σ (Except Exc (Option (Item ι γ δ)))
  | none => .ret (.ok none)
  | some u => andThen (L.act (removeId u)) someItem

/-- The body of `pop`, `pile.py:255-277`. -/
def popBody (L : Part σ (Pile ι γ δ)) (r : Ref ι) (d : Bool) : Prog σ (Except Exc (Option (Item ι γ δ))) :=
  andThen (L.act (popItemD r d)) (popRest L)

/-- The checks of `update`, `pile.py:313-316`. -/
def updateCheck (sub : γ → γ → Bool) (a : Pile.Arg ι γ δ) (p : Pile ι γ δ) : Res (Pile ι γ δ) (Item ι γ δ) :=
  match a with
  | none => (p, .error .typeError)
  | some x =>
    if Pile.validType sub p.itemType p.strict x = false then (p, .error .typeError)
    else if p.items.has x.id = false then (p, .error .notFound)
    else (p, .ok x)

/-- The body of `update`, `pile.py:303-318`. -/
def updateBody (L : Part σ (Pile ι γ δ)) (sub : γ → γ → Bool) (a : Pile.Arg ι γ δ) : Prog σ (Except Exc Unit) :=
  andThen (L.act (updateCheck sub a)) (fun x => L.act (putItem x))

/-- `self._items.clear()`, `pile.py:323`. -/
def clearItems (p : Pile ι γ δ) : Res (Pile ι γ δ) Unit := ({ p with items := [] }, .ok ())

/-- `self._progression.clear()`, `pile.py:324`. -/
def clearOrder (p : Pile ι γ δ) : Res (Pile ι γ δ) Unit := ({ p with order := [] }, .ok ())

/-- The body of `clear`, `pile.py:321-324`. -/
def clearBody (L : Part σ (Pile ι γ δ)) : Prog σ (Except Exc Unit) :=
  andThen (L.act clearItems) (fun _ => L.act clearOrder)

/-- `get`, `__contains__` and `__len__` read `_items` once, `pile.py:293-300, 598-601, 606`. -/
def read {β : Type} (f : Pile ι γ δ → β) (p : Pile ι γ δ) : Pile ι γ δ × β := (p, f p)

/-- `self._progression[index]`, `pile.py:457`. -/
def idAt (i : Int) (p : Pile ι γ δ) : Except Exc ι :=
  match Py.getIdx p.order i with
  | none => .error .indexError
  | some u => .ok u

/-- `self._items[uid]`, `pile.py:458`. -/
def itemOf (u : ι) (p : Pile ι γ δ) : Except Exc (Item ι γ δ) :=
  match p.items.get? u with
  | none => .error .keyError
  | some x => .ok x

/-- The body of `_get_by_index`, `pile.py:454-458`. -/
def indexBody (L : Part σ (Pile ι γ δ)) (i : Int) : Prog σ (Except Exc (Item ι γ δ)) :=
  andThen (L.act (read (idAt i))) (fun u => L.act (read (itemOf u)))

/-- The synchronized methods of `Pile` that are modelled. Part of the model of `src/lionherd_core/base/pile.py:212-324, 595-606`. -/
inductive Call (ι γ δ : Type) where
  | add (a : Pile.Arg ι γ δ)
  | remove (r : Ref ι)
  | pop (r : Ref ι) (hasDefault : Bool)
  | get (r : Ref ι) (hasDefault : Bool)
  | update (a : Pile.Arg ι γ δ)
  | clear
  | contains (r : Ref ι)
  | len
  | index (i : Int)

/-- Apply a function to the value a body returns. Part of the model of `src/lionherd_core/base/pile.py:212-324, 595-606`. -/
def mapOk {β β' : Type} (f : β → β') (p : Prog σ (Except Exc β)) : Prog σ (Except Exc β') :=
  p.bind (fun r => .ret (r.map f))

/-- No value. Part of the model of `src/lionherd_core/base/pile.py:212-324, 595-606`. -/
def unitOut (_ : Unit) : Pile.Out ι γ δ := .unit

/-- `uid in self._items` as a result. Part of the model of `src/lionherd_core/base/pile.py:212-324, 595-606`. -/
def containsOut (r : Ref ι) (p : Pile ι γ δ) : Except Exc (Pile.Out ι γ δ) := .ok (.flag (Pile.contains p r))

/-- `len(self._items)` as a result. Part of the model of `src/lionherd_core/base/pile.py:212-324, 595-606`. -/
def lenOut (p : Pile ι γ δ) : Except Exc (Pile.Out ι γ δ) := .ok (.nat (Pile.len p))

/-- `get` as a result. Part of the model of `src/lionherd_core/base/pile.py:212-324, 595-606`. -/
def getOut (r : Ref ι) (d : Bool) (p : Pile ι γ δ) : Except Exc (Option (Item ι γ δ)) := Pile.get p r d

/-- The body of a call. Built on `addBody` (`pile.py:213-229`). -/
def body (L : Part σ (Pile ι γ δ)) (sub : γ → γ → Bool) : Call ι γ δ → Prog σ (Except Exc (Pile.Out ι γ δ))
  | .add a => mapOk unitOut (addBody L sub a)
  | .remove r => mapOk .item (removeBody L r)
  | .pop r d => mapOk .ofOption (popBody L r d)
  | .get r d => mapOk .ofOption (L.act (read (getOut r d)))
  | .update a => mapOk unitOut (updateBody L sub a)
  | .clear => mapOk unitOut (clearBody L)
  | .contains r => L.act (read (containsOut r))
  | .len => L.act (read lenOut)
  | .index i => mapOk .item (indexBody L i)

end Verif.PileSync

namespace Verif.GraphSync

open Verif.Sync Verif.PileSync

variable {ι ν ε : Type} [DecidableEq ι]

/-- `self.nodes`, with lock 1. Serves `addNode` (`graph.py:178-187`). -/
def nodesL : Part (Graph ι ν ε) (Pile ι Unit ν) := ⟨1, fun g => g.nodes, fun p g => { g with nodes := p }⟩

/-- `self.edges`, with lock 2. Serves `addEdge` (`graph.py:217-232`). -/
def edgesL : Part (Graph ι ν ε) (Pile ι Unit (EdgeData ι ε)) := ⟨2, fun g => g.edges, fun p g => { g with edges := p }⟩

/-- `self._out_edges[node.id] = set()`, `graph.py:186`. -/
def initOut (n : ι) (g : Graph ι ν ε) : Res (Graph ι ν ε) Unit := ({ g with out := g.out.set n [] }, .ok ())

/-- `self._in_edges[node.id] = set()`, `graph.py:187`. -/
def initInn (n : ι) (g : Graph ι ν ε) : Res (Graph ι ν ε) Unit := ({ g with inn := g.inn.set n [] }, .ok ())

/-- The body of `add_node`, `graph.py:178-187`. -/
def addNode (a : Pile.Arg ι Unit ν) : Prog (Graph ι ν ε) (Except Exc Unit) :=
  match a with
  | none => .ret (.error .typeError)
  | some x =>
    andThen (withLock 1 (addBody nodesL Graph.anySub (some x))) (fun _ => andThen (act (initOut x.id)) (fun _ => act (initInn x.id)))

/-- `edge.head not in self.nodes`, `graph.py:225-228`. -/
def needNode (n : ι) (p : Pile ι Unit ν) : Except Exc Unit :=
  if Pile.contains p (some n) = false then .error .notFound else .ok ()

/-- `self._out_edges[edge.head].add(edge.id)`, `graph.py:231`. -/
def linkOut (n e : ι) (g : Graph ι ν ε) : Res (Graph ι ν ε) Unit :=
  match g.out.get? n with
  | none => (g, .error .keyError)
  | some l => ({ g with out := g.out.set n (Graph.setAdd l e) }, .ok ())

/-- `self._in_edges[edge.tail].add(edge.id)`, `graph.py:232`. -/
def linkInn (n e : ι) (g : Graph ι ν ε) : Res (Graph ι ν ε) Unit :=
  match g.inn.get? n with
  | none => (g, .error .keyError)
  | some l => ({ g with inn := g.inn.set n (Graph.setAdd l e) }, .ok ())

/-- The body of `add_edge`, `graph.py:217-232`. -/
def addEdge (a : Pile.Arg ι Unit (EdgeData ι ε)) : Prog (Graph ι ν ε) (Except Exc Unit) :=
  match a with
  | none => .ret (.error .attributeError)
  | some e =>
    andThen (withLock 1 (nodesL.act (read (needNode e.data.head)))) (fun _ =>
    andThen (withLock 1 (nodesL.act (read (needNode e.data.tail)))) (fun _ =>
    andThen (withLock 2 (addBody edgesL Graph.anySub (some e))) (fun _ =>
    andThen (act (linkOut e.data.head e.id)) (fun _ => act (linkInn e.data.tail e.id)))))

/-- `self._check_edge_exists(eid)` / `self._check_node_exists(nid)`, `graph.py:152-174`, which call `Pile.get`. -/
def need {δ : Type} (u : ι) (p : Pile ι Unit δ) : Except Exc (Item ι Unit δ) :=
  match p.items.get? u with
  | none => .error .notFound
  | some x => .ok x

/-- `self._out_edges[edge.head].discard(eid)`, `graph.py:245`. -/
def unlinkOut (n e : ι) (g : Graph ι ν ε) : Res (Graph ι ν ε) Unit :=
  match g.out.get? n with
  | none => (g, .error .keyError)
  | some l => ({ g with out := g.out.set n (Graph.setDiscard l e) }, .ok ())

/-- `self._in_edges[edge.tail].discard(eid)`, `graph.py:246`. -/
def unlinkInn (n e : ι) (g : Graph ι ν ε) : Res (Graph ι ν ε) Unit :=
  match g.inn.get? n with
  | none => (g, .error .keyError)
  | some l => ({ g with inn := g.inn.set n (Graph.setDiscard l e) }, .ok ())

/-- The body of `remove_edge`, `graph.py:234-248`. -/
def removeEdge (r : Ref ι) : Prog (Graph ι ν ε) (Except Exc (Item ι Unit (EdgeData ι ε))) :=
  match r with
  | none => .ret (.error .valueError)
  | some eid =>
    andThen (withLock 2 (edgesL.act (read (need eid)))) (fun e =>
    andThen (act (unlinkOut e.data.head eid)) (fun _ =>
    andThen (act (unlinkInn e.data.tail eid)) (fun _ =>
    withLock 2 (removeBody edgesL (some eid)))))

/-- `for edge_id in ...: self.remove_edge(edge_id)`, `graph.py:202-205`: each call takes the graph's lock again. -/
def removeEdges : List ι → Prog (Graph ι ν ε) (Except Exc Unit)
  | [] => .ret (.ok ())
  | e :: es => andThen (withLock 0 (removeEdge (some e))) (fun _ => removeEdges es)

/-- `list(self._in_edges[nid])`, `graph.py:202`. -/
def listInn (o : SetOrder ι) (n : ι) (g : Graph ι ν ε) : Res (Graph ι ν ε) (List ι) :=
  match g.inn.get? n with
  | none => (g, .error .keyError)
  | some l => (g, .ok (o.inn n l))

/-- `list(self._out_edges[nid])`, `graph.py:204`. -/
def listOut (o : SetOrder ι) (n : ι) (g : Graph ι ν ε) : Res (Graph ι ν ε) (List ι) :=
  match g.out.get? n with
  | none => (g, .error .keyError)
  | some l => (g, .ok (o.out n l))

/-- `del self._in_edges[nid]`, `graph.py:208` (the key is there: it was read in this call). -/
def delInn (n : ι) (g : Graph ι ν ε) : Res (Graph ι ν ε) Unit := ({ g with inn := g.inn.del n }, .ok ())

/-- `del self._out_edges[nid]`, `graph.py:209`. -/
def delOut (n : ι) (g : Graph ι ν ε) : Res (Graph ι ν ε) Unit := ({ g with out := g.out.del n }, .ok ())

/-- The body of `remove_node`, `graph.py:189-213`. -/
def removeNode (o : SetOrder ι) (r : Ref ι) : Prog (Graph ι ν ε) (Except Exc (Item ι Unit ν)) :=
  match r with
  | none => .ret (.error .valueError)
  | some nid =>
    andThen (withLock 1 (nodesL.act (read (need nid)))) (fun _ =>
    andThen (act (listInn o nid)) (fun ins =>
    andThen (removeEdges ins) (fun _ =>
    andThen (act (listOut o nid)) (fun outs =>
    andThen (removeEdges outs) (fun _ =>
    andThen (act (delInn nid)) (fun _ =>
    andThen (act (delOut nid)) (fun _ =>
    withLock 1 (removeBody nodesL (some nid)))))))))

/-- No value. Part of the model of `src/lionherd_core/base/pile.py:212-324, 595-606`. -/
def unitOut (_ : Unit) : Graph.Out ι ν ε := .unit

/-- The body of a mutating call. Built on `addNode` (`graph.py:178-187`). -/
def body : Graph.Op ι ν ε → Prog (Graph ι ν ε) (Except Exc (Graph.Out ι ν ε))
  | .addNode a => mapOk unitOut (addNode a)
  | .removeNode o r => mapOk .node (removeNode o r)
  | .addEdge a => mapOk unitOut (addEdge a)
  | .removeEdge r => mapOk .edge (removeEdge r)

end Verif.GraphSync
