import Verif.Model.Pile

/-!
# Model of `src/lionherd_core/base/graph.py`

* `nodes` and `edges` are piles; the class constraint (`item_type=Node` / `Edge`) is represented by arguments: an argument that
  is not a `Node` (`Edge`) is `none`, which `Pile.add` rejects with `TypeError` as the class check does.
* `_out_edges` / `_in_edges` map node ids to `set`s of edge ids.  A set is a duplicate-free list; since the iteration
  order of a Python set is unspecified, every loop over such a set goes through an arbitrary reordering `Ord`, chosen
  anew for each call and each node.
* Edge conditions are answers `cond : edge id → Bool` given during one `find_path` call (each edge is asked at most
  once per call, so a condition whose answer varies over time is covered too).
* `while` loops carry a fuel parameter; `none` means that the loop has not finished within the fuel.  Python recursion depth in
  `is_acyclic` is modelled: the recursion limit is a parameter and exceeding it raises `RecursionError`.
-/

namespace Verif

/-- Content of an `Edge`, `graph.py:60-75`; `info` stands for label, condition, properties and metadata. -/
structure EdgeData (ι ε : Type) where
  head : ι
  tail : ι
  info : ε
  deriving DecidableEq, Repr

/-- State of a `Graph`, `graph.py:108-118`. -/
structure Graph (ι ν ε : Type) where
  nodes : Pile ι Unit ν := { itemType := some [()] }
  edges : Pile ι Unit (EdgeData ι ε) := { itemType := some [()] }
  out : Dict ι (List ι) := []
  inn : Dict ι (List ι) := []

/-- Iteration orders of the adjacency sets: any reordering, possibly different for each node and direction.
Serves `removeNode` (`graph.py:189-213`). -/
structure SetOrder (ι : Type) where
  out : ι → List ι → List ι
  inn : ι → List ι → List ι
  out_perm : ∀ n l, (out n l).Perm l
  inn_perm : ∀ n l, (inn n l).Perm l

/-- Insertion order. Serves `rebuildLoop` (`graph.py:145-150`). -/
def SetOrder.id {ι : Type} : SetOrder ι := ⟨fun _ l => l, fun _ l => l, fun _ _ => .refl _, fun _ _ => .refl _⟩

namespace Graph

variable {ι ν ε : Type} [DecidableEq ι]

/-- `isinstance` is trivially true inside the piles (see the header). Serves `addNode` (`graph.py:178-187`). -/
abbrev anySub : Unit → Unit → Bool := fun _ _ => true

/-- `s.add(x)` on a set. Serves `addIfPresent` (`graph.py:147-150`). -/
def setAdd (l : List ι) (x : ι) : List ι := if x ∈ l then l else l ++ [x]

/-- `s.discard(x)` on a set. Serves `removeEdge` (`graph.py:234-248`). -/
def setDiscard (l : List ι) (x : ι) : List ι := l.erase x

/-- `if k in d: d[k].add(x)`, `graph.py:147-150`. -/
def addIfPresent (d : Dict ι (List ι)) (k x : ι) : Dict ι (List ι) :=
  match d.get? k with
  | some l => d.set k (setAdd l x)
  | none => d

/-- The loop of `_rebuild_adjacency`, `graph.py:145-150`, over the listed edges. -/
def rebuildLoop : List (Item ι Unit (EdgeData ι ε)) → Dict ι (List ι) × Dict ι (List ι) → Dict ι (List ι) × Dict ι (List ι)
  | [], s => s
  | e :: es, (o, i) => rebuildLoop es (addIfPresent o e.data.head e.id, addIfPresent i e.data.tail e.id)

/-- `Graph(nodes=pile, edges=pile)`, `graph.py:120-150`: no validation of the end points; adjacency is rebuilt, silently
skipping end points that are not nodes. -/
def mk' (nodes : Pile ι Unit ν) (edges : Pile ι Unit (EdgeData ι ε)) : Except Exc (Graph ι ν ε) :=
  match Pile.iter edges with
  | .error e => .error e
  | .ok es =>
    let empty : Dict ι (List ι) := nodes.keys.map (fun n => (n, []))
    let r := rebuildLoop es (empty, empty)
    .ok { nodes := nodes, edges := edges, out := r.1, inn := r.2 }

/-- `add_node`, `graph.py:178-187`. -/
def addNode (g : Graph ι ν ε) (a : Pile.Arg ι Unit ν) : Res (Graph ι ν ε) Unit :=
  match a with
  | none => (g, .error .typeError)
  | some x =>
    match Pile.add anySub g.nodes (some x) with
    | (p, .error e) => ({ g with nodes := p }, .error e)
    | (p, .ok ()) => ({ g with nodes := p, out := g.out.set x.id [], inn := g.inn.set x.id [] }, .ok ())

/-- `add_edge`, `graph.py:217-232`. -/
def addEdge (g : Graph ι ν ε) (a : Pile.Arg ι Unit (EdgeData ι ε)) : Res (Graph ι ν ε) Unit :=
  match a with
  | none => (g, .error .attributeError)
  | some e =>
    if Pile.contains g.nodes (some e.data.head) = false then (g, .error .notFound)
    else if Pile.contains g.nodes (some e.data.tail) = false then (g, .error .notFound)
    else
      match Pile.add anySub g.edges (some e) with
      | (p, .error x) => ({ g with edges := p }, .error x)
      | (p, .ok ()) =>
        match g.out.get? e.data.head with
        | none => ({ g with edges := p }, .error .keyError)
        | some l =>
          let g1 := { g with edges := p, out := g.out.set e.data.head (setAdd l e.id) }
          match g1.inn.get? e.data.tail with
          | none => (g1, .error .keyError)
          | some m => ({ g1 with inn := g1.inn.set e.data.tail (setAdd m e.id) }, .ok ())

/-- `remove_edge`, `graph.py:234-248`. -/
def removeEdge (g : Graph ι ν ε) (r : Ref ι) : Res (Graph ι ν ε) (Item ι Unit (EdgeData ι ε)) :=
  match r with
  | none => (g, .error .valueError)
  | some eid =>
    match g.edges.items.get? eid with
    | none => (g, .error .notFound)
    | some e =>
      match g.out.get? e.data.head with
      | none => (g, .error .keyError)
      | some l =>
        let g1 := { g with out := g.out.set e.data.head (setDiscard l eid) }
        match g1.inn.get? e.data.tail with
        | none => (g1, .error .keyError)
        | some m =>
          let g2 := { g1 with inn := g1.inn.set e.data.tail (setDiscard m eid) }
          match Pile.remove g2.edges (some eid) with
          | (p, res) => ({ g2 with edges := p }, res)

/-- `for edge_id in ...: self.remove_edge(edge_id)`, `graph.py:202-205`. -/
def removeEdges (g : Graph ι ν ε) : List ι → Res (Graph ι ν ε) Unit
  | [] => (g, .ok ())
  | e :: es =>
    match removeEdge g (some e) with
    | (g', .ok _) => removeEdges g' es
    | (g', .error x) => (g', .error x)

/-- `remove_node`, `graph.py:189-213`. -/
def removeNode (o : SetOrder ι) (g : Graph ι ν ε) (r : Ref ι) : Res (Graph ι ν ε) (Item ι Unit ν) :=
  match r with
  | none => (g, .error .valueError)
  | some nid =>
    match g.nodes.items.get? nid with
    | none => (g, .error .notFound)
    | some _ =>
      match g.inn.get? nid with
      | none => (g, .error .keyError)
      | some ins =>
        match removeEdges g (o.inn nid ins) with
        | (g1, .error x) => (g1, .error x)
        | (g1, .ok ()) =>
          match g1.out.get? nid with
          | none => (g1, .error .keyError)
          | some outs =>
            match removeEdges g1 (o.out nid outs) with
            | (g2, .error x) => (g2, .error x)
            | (g2, .ok ()) =>
              let g3 := { g2 with inn := g2.inn.del nid, out := g2.out.del nid }
              match Pile.remove g3.nodes (some nid) with
              | (p, res) => ({ g3 with nodes := p }, res)

/-- `self.edges[edge_id]`. Serves `getNodeEdges` (`graph.py:270-298`). -/
def edge (g : Graph ι ν ε) (e : ι) : Except Exc (Item ι Unit (EdgeData ι ε)) :=
  match g.edges.items.get? e with
  | some x => .ok x
  | none => .error .notFound

/-- `self.nodes[node_id]`. Serves `getHeads` (`graph.py:300-302`). -/
def node (g : Graph ι ν ε) (n : ι) : Except Exc (Item ι Unit ν) :=
  match g.nodes.items.get? n with
  | some x => .ok x
  | none => .error .notFound

/-- `d.get(nid, set())`. Serves `getPredecessors` (`graph.py:252-259`). -/
def adj (d : Dict ι (List ι)) (n : ι) : List ι := (d.get? n).getD []

/-- `[f(x) for x in xs]` where `f` may raise. Serves `getPredecessors` (`graph.py:252-259`). -/
def mapE {α β : Type} (f : α → Except Exc β) : List α → Except Exc (List β)
  | [] => .ok []
  | a :: as =>
    match f a with
    | .error e => .error e
    | .ok b =>
      match mapE f as with
      | .error e => .error e
      | .ok bs => .ok (b :: bs)

/-- `self.nodes[self.edges[e].tail]`. Serves `getSuccessors` (`graph.py:261-268`). -/
def tailNode (g : Graph ι ν ε) (e : ι) : Except Exc (Item ι Unit ν) :=
  match edge g e with
  | .error x => .error x
  | .ok ed => node g ed.data.tail

/-- `self.nodes[self.edges[e].head]`. Serves `getPredecessors` (`graph.py:252-259`). -/
def headNode (g : Graph ι ν ε) (e : ι) : Except Exc (Item ι Unit ν) :=
  match edge g e with
  | .error x => .error x
  | .ok ed => node g ed.data.head

/-- `get_predecessors`, `graph.py:252-259`. -/
def getPredecessors (o : SetOrder ι) (g : Graph ι ν ε) (r : Ref ι) : Except Exc (List (Item ι Unit ν)) :=
  match r with
  | none => .error .valueError
  | some n => mapE (headNode g) (o.inn n (adj g.inn n))

/-- `get_successors`, `graph.py:261-268`. -/
def getSuccessors (o : SetOrder ι) (g : Graph ι ν ε) (r : Ref ι) : Except Exc (List (Item ι Unit ν)) :=
  match r with
  | none => .error .valueError
  | some n => mapE (tailNode g) (o.out n (adj g.out n))

/-- `direction` argument of `get_node_edges`; `bad` is any other string. Serves `getNodeEdges` (`graph.py:270-298`). -/
inductive Dir where
  | in_ | out | both | bad
  deriving DecidableEq

/-- `get_node_edges`, `graph.py:270-298`. -/
def getNodeEdges (o : SetOrder ι) (g : Graph ι ν ε) (r : Ref ι) (d : Dir) :
    Except Exc (List (Item ι Unit (EdgeData ι ε))) :=
  match d with
  | .bad => .error .valueError
  | d =>
    match r with
    | none => .error .valueError
    | some n =>
      mapE (edge g) ((if d = .in_ ∨ d = .both then o.inn n (adj g.inn n) else []) ++
        (if d = .out ∨ d = .both then o.out n (adj g.out n) else []))

/-- Keys of the adjacency dict whose set is empty. Serves `getHeads` (`graph.py:300-302`). -/
def emptyKeys (d : Dict ι (List ι)) : List ι := (d.filter (fun kv => kv.2.isEmpty)).map Prod.fst

/-- `get_heads`, `graph.py:300-302`. -/
def getHeads (g : Graph ι ν ε) : Except Exc (List (Item ι Unit ν)) := mapE (node g) (emptyKeys g.inn)

/-- `get_tails`, `graph.py:304-306`. -/
def getTails (g : Graph ι ν ε) : Except Exc (List (Item ι Unit ν)) := mapE (node g) (emptyKeys g.out)

/-- The colours of `is_acyclic`, `graph.py:312`. -/
inductive Color where
  | white | gray | black
  deriving DecidableEq, Repr

/-- The `for edge_id in self._out_edges[node_id]` loop of `dfs`, `graph.py:319-325`, with the recursive call as a
parameter. -/
def dfsLoop (g : Graph ι ν ε) (rec_ : ι → Dict ι Color → Res (Dict ι Color) Bool) :
    List ι → Dict ι Color → Res (Dict ι Color) Bool
  | [], c => (c, .ok true)
  | e :: es, c =>
    match edge g e with
    | .error x => (c, .error x)
    | .ok ed =>
      match c.get? ed.data.tail with
      | none => (c, .error .keyError)
      | some .gray => (c, .ok false)
      | some .black => dfsLoop g rec_ es c
      | some .white =>
        match rec_ ed.data.tail c with
        | (c', .ok true) => dfsLoop g rec_ es c'
        | (c', .ok false) => (c', .ok false)
        | (c', .error x) => (c', .error x)

/-- `dfs(node_id)`, `graph.py:315-328`; the first argument is the remaining recursion depth. -/
def dfs (o : SetOrder ι) (g : Graph ι ν ε) : Nat → ι → Dict ι Color → Res (Dict ι Color) Bool
  | 0, _, c => (c, .error .recursionError)
  | k + 1, n, c =>
    let c1 := c.set n .gray
    match g.out.get? n with
    | none => (c1, .error .keyError)
    | some es =>
      match dfsLoop g (dfs o g k) (o.out n es) c1 with
      | (c2, .ok true) => (c2.set n .black, .ok true)
      | (c2, .ok false) => (c2, .ok false)
      | (c2, .error x) => (c2, .error x)

/-- The `all(...)` over the components, `graph.py:331-334`. -/
def dfsAll (o : SetOrder ι) (g : Graph ι ν ε) (limit : Nat) : List ι → Dict ι Color → Except Exc Bool
  | [], _ => .ok true
  | n :: ns, c =>
    match c.get? n with
    | none => .error .keyError
    | some .white =>
      match dfs o g limit n c with
      | (c', .ok true) => dfsAll o g limit ns c'
      | (_, .ok false) => .ok false
      | (_, .error x) => .error x
    | some .gray => dfsAll o g limit ns c
    | some .black => dfsAll o g limit ns c

/-- `is_acyclic`, `graph.py:310-334`. -/
def isAcyclic (o : SetOrder ι) (g : Graph ι ν ε) (limit : Nat) : Except Exc Bool :=
  dfsAll o g limit g.nodes.keys (g.nodes.keys.map (fun n => (n, Color.white)))

/-- Inner loop of Kahn's algorithm, `graph.py:352-356`; the in-degrees are Python ints. -/
def kahnInner (g : Graph ι ν ε) : List ι → Dict ι Int → List ι → Except Exc (Dict ι Int × List ι)
  | [], deg, q => .ok (deg, q)
  | e :: es, deg, q =>
    match edge g e with
    | .error x => .error x
    | .ok ed =>
      match deg.get? ed.data.tail with
      | none => .error .keyError
      | some d =>
        let deg' := deg.set ed.data.tail (d - 1)
        kahnInner g es deg' (if d - 1 = 0 then q ++ [ed.data.tail] else q)

/-- The `while queue` loop of `topological_sort`, `graph.py:348-357`. -/
def kahnLoop (o : SetOrder ι) (g : Graph ι ν ε) :
    Nat → Dict ι Int → List ι → List (Item ι Unit ν) → Option (Except Exc (List (Item ι Unit ν)))
  | _, _, [], res => some (.ok res)
  | 0, _, _ :: _, _ => none
  | k + 1, deg, n :: q, res =>
    match node g n with
    | .error x => some (.error x)
    | .ok nd =>
      match g.out.get? n with
      | none => some (.error .keyError)
      | some es =>
        match kahnInner g (o.out n es) deg q with
        | .error x => some (.error x)
        | .ok (deg', q') => kahnLoop o g k deg' q' (res ++ [nd])

/-- `in_degree = {nid: len(edges) ...}`, `graph.py:342`. -/
def inDegrees (g : Graph ι ν ε) : Dict ι Int := g.inn.map (fun kv => (kv.1, (kv.2.length : Int)))

/-- `deque([nid for nid, deg in in_degree.items() if deg == 0])`, `graph.py:345`. -/
def zeroKeys (d : Dict ι Int) : List ι := (d.filter (fun kv => kv.2 == 0)).map Prod.fst

/-- `topological_sort`, `graph.py:336-359`. -/
def topologicalSort (o : SetOrder ι) (g : Graph ι ν ε) (limit fuel : Nat) :
    Option (Except Exc (List (Item ι Unit ν))) :=
  match isAcyclic o g limit with
  | .error e => some (.error e)
  | .ok false => some (.error .valueError)
  | .ok true => kahnLoop o g fuel (inDegrees g) (zeroKeys (inDegrees g)) []

/-- State of the BFS in `find_path`, `graph.py:375-377`. -/
structure Bfs (ι : Type) where
  queue : List ι
  parent : Dict ι (ι × ι)
  visited : List ι

/-- Inner loop of the BFS, `graph.py:393-404`; `cond` answers `not check_conditions or await edge.check_condition()`. -/
def bfsInner (g : Graph ι ν ε) (cond : ι → Bool) (cur : ι) : List ι → Bfs ι → Except Exc (Bfs ι)
  | [], s => .ok s
  | e :: es, s =>
    match edge g e with
    | .error x => .error x
    | .ok ed =>
      if ed.data.tail ∈ s.visited then bfsInner g cond cur es s
      else if cond e = false then bfsInner g cond cur es s
      else bfsInner g cond cur es
        { queue := s.queue ++ [ed.data.tail], parent := s.parent.set ed.data.tail (cur, e),
          visited := s.visited ++ [ed.data.tail] }

/-- The path reconstruction loop, `graph.py:383-389` (the edges in reverse order, then reversed). -/
def reconstruct (g : Graph ι ν ε) (parent : Dict ι (ι × ι)) :
    Nat → ι → List (Item ι Unit (EdgeData ι ε)) → Option (Except Exc (List (Item ι Unit (EdgeData ι ε))))
  | k, n, path =>
    match parent.get? n with
    | none => some (.ok path.reverse)
    | some (p, e) =>
      match k with
      | 0 => none
      | k + 1 =>
        match edge g e with
        | .error x => some (.error x)
        | .ok ed => reconstruct g parent k p (path ++ [ed])

/-- The `while queue` loop of `find_path`, `graph.py:379-406`; the inner `none` is the returned `None`. -/
def bfsLoop (o : SetOrder ι) (g : Graph ι ν ε) (cond : ι → Bool) (goal : ι) :
    Nat → Bfs ι → Option (Except Exc (Option (List (Item ι Unit (EdgeData ι ε)))))
  | fuel, s =>
    match s.queue with
    | [] => some (.ok none)
    | n :: q =>
      match fuel with
      | 0 => none
      | k + 1 =>
        if n = goal then
          match reconstruct g s.parent k goal [] with
          | none => none
          | some (.error x) => some (.error x)
          | some (.ok p) => some (.ok (some p))
        else
          match g.out.get? n with
          | none => some (.error .keyError)
          | some es =>
            match bfsInner g cond n (o.out n es) { s with queue := q } with
            | .error x => some (.error x)
            | .ok s' => bfsLoop o g cond goal k s'

/-- `find_path`, `graph.py:361-406`. -/
def findPath (o : SetOrder ι) (g : Graph ι ν ε) (cond : ι → Bool) (start goal : Ref ι) (fuel : Nat) :
    Option (Except Exc (Option (List (Item ι Unit (EdgeData ι ε))))) :=
  match start, goal with
  | some a, some b =>
    if Pile.contains g.nodes (some a) = false ∨ Pile.contains g.nodes (some b) = false then some (.error .notFound)
    else bfsLoop o g cond b fuel { queue := [a], parent := [], visited := [a] }
  | _, _ => some (.error .valueError)

/-- `__contains__` for a UUID, `graph.py:408-416`. -/
def containsId (g : Graph ι ν ε) (u : ι) : Bool :=
  Pile.contains g.nodes (some u) || Pile.contains g.edges (some u)

/-- `__len__`, `graph.py:418-420`. -/
def len (g : Graph ι ν ε) : Nat := Pile.len g.nodes

/-- The dict produced by `Graph.to_dict`, `graph.py:425-472`, restricted to the two piles; an absent key is `none`. -/
structure GraphDict (D : Type) where
  nodes : Option (Pile.PileDict D)
  edges : Option (Pile.PileDict D)

/-- `to_dict`, `graph.py:425-472`; `encN`, `encE` are the serialisations of the nodes and edges, `cls` the dotted class
names (`Node`, `Edge`). -/
def toDict {D : Type} (clsN clsE : Unit → String) (encN : Item ι Unit ν → D) (encE : Item ι Unit (EdgeData ι ε) → D)
    (g : Graph ι ν ε) : Except Exc (GraphDict D) :=
  match Pile.toDict clsN encN none g.nodes with
  | .error e => .error e
  | .ok n =>
    match Pile.toDict clsE encE none g.edges with
    | .error e => .error e
    | .ok es => .ok { nodes := some n, edges := some es }

/-- `if data: Pile.from_dict(data)` else the default pile, `graph.py:503-511`. -/
def pileFrom {D δ : Type} (load : String → Option Unit) (lionClass : D → Option String)
    (dec : D → Except Exc (Item ι Unit δ)) : Option (Pile.PileDict D) → Except Exc (Pile ι Unit δ)
  | none => .ok { itemType := some [()] }
  | some d => Pile.fromDict anySub load lionClass dec d

/-- `from_dict`, `graph.py:474-516`. -/
def fromDict {D : Type} (load : String → Option Unit) (lionClass : D → Option String)
    (decN : D → Except Exc (Item ι Unit ν)) (decE : D → Except Exc (Item ι Unit (EdgeData ι ε)))
    (d : GraphDict D) : Except Exc (Graph ι ν ε) :=
  match pileFrom load lionClass decN d.nodes with
  | .error e => .error e
  | .ok n =>
    match pileFrom load lionClass decE d.edges with
    | .error e => .error e
    | .ok es => mk' n es

/-- The mutating methods of `Graph` as data. Built on `EdgeData` (`graph.py:60-75`). -/
inductive Op (ι ν ε : Type) where
  | addNode (a : Pile.Arg ι Unit ν)
  | removeNode (o : SetOrder ι) (r : Ref ι)
  | addEdge (a : Pile.Arg ι Unit (EdgeData ι ε))
  | removeEdge (r : Ref ι)

/-- What a mutating call returns. Built on `EdgeData` (`graph.py:60-75`). -/
inductive Out (ι ν ε : Type) where
  | unit
  | node (x : Item ι Unit ν)
  | edge (x : Item ι Unit (EdgeData ι ε))

/-- Run one call. Built on `Graph` (`graph.py:108-118`). -/
def step (g : Graph ι ν ε) : Op ι ν ε → Res (Graph ι ν ε) (Out ι ν ε)
  | .addNode a => let (s, e) := addNode g a; (s, e.map fun _ => .unit)
  | .removeNode o r => let (s, e) := removeNode o g r; (s, e.map .node)
  | .addEdge a => let (s, e) := addEdge g a; (s, e.map fun _ => .unit)
  | .removeEdge r => let (s, e) := removeEdge g r; (s, e.map .edge)

/-- State after a history of calls. Built on `Graph` (`graph.py:108-118`). -/
def run (g : Graph ι ν ε) (ops : List (Op ι ν ε)) : Graph ι ν ε := ops.foldl (fun h op => (step h op).1) g

end Graph

end Verif
