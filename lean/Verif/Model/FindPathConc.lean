import Verif.Model.Graph

/-!
# Model of `Graph.find_path(check_conditions=True)` interleaved with other tasks, `graph.py:361-406`

`find_path` is a coroutine that takes no lock and suspends while a condition is awaited (`graph.py:399`).  During the suspension
other tasks of the event loop may run any calls on the same graph (each of them is synchronous, hence atomic here).
Everything between two suspensions is one uninterrupted run of the event loop.

* The loop `for edge_id in self._out_edges[current_id]` (`graph.py:393`) holds an iterator over one `set` object.  CPython raises
  `RuntimeError` at the next step of the iterator when the size of the set differs from the size at the start.  If the set has
  not been changed, the iterator yields every element once, in some order.  If it has been changed but has its old size, the
  iterator may yield any element and stop at any time (this over-approximates CPython).
* `remove_node` empties the set and drops it from the adjacency dict; a later `add_node` creates a new set object, the iterator
  stays on the old one (`alive = false`).
* Not modelled here: other operating system threads (they could interrupt `find_path` anywhere), and changes of `head` / `tail`
  of a stored edge.
-/

namespace Verif

namespace FindPathConc

open Graph

variable {ι ν ε : Type} [DecidableEq ι]

/-- Iterator over the set `self._out_edges[node]`, `graph.py:393`: size at the start, elements yielded, whether the set has been
changed since, whether it is still the one in the adjacency dict. -/
structure Iter (ι : Type) where
  node : ι
  size : Nat
  seen : List ι
  touched : Bool
  alive : Bool

/-- Current elements of the set object. Built on `Iter` (`graph.py:393`). -/
def Iter.obj (g : Graph ι ν ε) (it : Iter ι) : List ι := if it.alive then adj g.out it.node else []

/-- The iterator after another task has changed the graph from `g` to `g'`. Built on `Iter` (`graph.py:393`). -/
def Iter.after (it : Iter ι) (g g' : Graph ι ν ε) : Iter ι :=
  { it with
    touched := it.touched || decide (g'.out.get? it.node ≠ g.out.get? it.node)
    alive := it.alive && (g'.out.get? it.node).isSome }

/-- What the call ends with: a path, `None`, an exception of the search itself, or the exception of a condition.
Serves `reconResult` (`graph.py:383-389`). -/
inductive Result (ι ε : Type) where
  | path (p : List (Item ι Unit (EdgeData ι ε)))
  | none
  | raised (e : Exc)
  | condition

/-- Where the coroutine is: at the head of the `while` loop, at the head of the `for` loop, suspended in the condition of edge
`e` with tail `t`, finished. Serves `St` (`graph.py:375-377`). -/
inductive Pc (ι ε : Type) where
  | pop
  | iter (it : Iter ι)
  | asked (it : Iter ι) (e t : ι)
  | done (r : Result ι ε)

/-- State: the graph, the search of `graph.py:375-377`, and two records: the answers given by conditions, the calls made by
other tasks. -/
structure St (ι ν ε : Type) where
  g : Graph ι ν ε
  search : Bfs ι
  pc : Pc ι ε
  log : List (ι × Bool) := []
  others : List (Op ι ν ε) := []

/-- State after the checks of `graph.py:368-377` (both ends are nodes). -/
def start (g : Graph ι ν ε) (a : ι) : St ι ν ε := { g := g, search := { queue := [a], parent := [], visited := [a] }, pc := .pop }

/-- Result of the reconstruction, `graph.py:383-389`. -/
def reconResult : Except Exc (List (Item ι Unit (EdgeData ι ε))) → Result ι ε
  | .ok p => .path p
  | .error x => .raised x

/-- `visited.add`, `parent[...] = ...`, `queue.append`, `graph.py:402-404`. -/
def reach (s : Bfs ι) (n e t : ι) : Bfs ι :=
  { queue := s.queue ++ [t], parent := s.parent.set t (n, e), visited := s.visited ++ [t] }

/-- One step of the call towards `b`, or of another task. Built on `Iter` (`graph.py:393`). -/
inductive Step (b : ι) : St ι ν ε → St ι ν ε → Prop where
  /-- `while queue:` ends, `graph.py:379,406`. -/
  | exhausted (s) (hp : s.pc = .pop) (hq : s.search.queue = []) : Step b s { s with pc := .done .none }
  /-- `if current_id == end_id`, `graph.py:382-390`. -/
  | goal (s) (q k r) (hp : s.pc = .pop) (hq : s.search.queue = b :: q)
      (hr : reconstruct s.g s.search.parent k b [] = some r) : Step b s { s with pc := .done (reconResult r) }
  /-- `self._out_edges[current_id]` raises, `graph.py:393`. -/
  | gone (s) (n q) (hp : s.pc = .pop) (hq : s.search.queue = n :: q) (hn : n ≠ b) (ho : s.g.out.get? n = none) :
      Step b s { s with pc := .done (.raised .keyError) }
  /-- The `for` loop starts, `graph.py:393`. -/
  | expand (s) (n q l) (hp : s.pc = .pop) (hq : s.search.queue = n :: q) (hn : n ≠ b) (ho : s.g.out.get? n = some l) :
      Step b s { s with search := { s.search with queue := q }, pc := .iter ⟨n, l.length, [], false, true⟩ }
  /-- The set has another size than at the start. -/
  | resized (s) (it : Iter ι) (hp : s.pc = .iter it) (hs : (it.obj s.g).length ≠ it.size) :
      Step b s { s with pc := .done (.raised .runtimeError) }
  /-- The `for` loop ends. -/
  | stop (s) (it : Iter ι) (hp : s.pc = .iter it) (hs : (it.obj s.g).length = it.size)
      (hd : (∀ e ∈ it.obj s.g, e ∈ it.seen) ∨ it.touched = true) : Step b s { s with pc := .pop }
  /-- `self.edges[edge_id]` raises, `graph.py:394`. -/
  | missing (s) (it : Iter ι) (e x) (hp : s.pc = .iter it) (hs : (it.obj s.g).length = it.size) (he : e ∈ it.obj s.g)
      (hf : e ∉ it.seen ∨ it.touched = true) (hx : edge s.g e = .error x) : Step b s { s with pc := .done (.raised x) }
  /-- The next edge leads to a visited node, `graph.py:394-397`. -/
  | known (s) (it : Iter ι) (e ed) (hp : s.pc = .iter it) (hs : (it.obj s.g).length = it.size) (he : e ∈ it.obj s.g)
      (hf : e ∉ it.seen ∨ it.touched = true) (hx : edge s.g e = .ok ed) (hv : ed.data.tail ∈ s.search.visited) :
      Step b s { s with pc := .iter { it with seen := e :: it.seen } }
  /-- The next edge leads to a new node: its condition is called, `graph.py:399`. -/
  | ask (s) (it : Iter ι) (e ed) (hp : s.pc = .iter it) (hs : (it.obj s.g).length = it.size) (he : e ∈ it.obj s.g)
      (hf : e ∉ it.seen ∨ it.touched = true) (hx : edge s.g e = .ok ed) (hv : ed.data.tail ∉ s.search.visited) :
      Step b s { s with pc := .asked { it with seen := e :: it.seen } e ed.data.tail }
  /-- Another task runs one call while the condition is awaited. -/
  | other (s) (it : Iter ι) (e t) (op : Op ι ν ε) (hp : s.pc = .asked it e t) :
      Step b s { s with g := (step s.g op).1, pc := .asked (it.after s.g (step s.g op).1) e t, others := s.others ++ [op] }
  /-- The condition answers no, `graph.py:399-400`. -/
  | no (s) (it : Iter ι) (e t) (hp : s.pc = .asked it e t) :
      Step b s { s with pc := .iter it, log := (e, false) :: s.log }
  /-- The condition answers yes, `graph.py:402-404`. -/
  | yes (s) (it : Iter ι) (e t) (hp : s.pc = .asked it e t) :
      Step b s { s with search := reach s.search it.node e t, pc := .iter it, log := (e, true) :: s.log }
  /-- The condition raises. -/
  | fails (s) (it : Iter ι) (e t) (hp : s.pc = .asked it e t) : Step b s { s with pc := .done .condition }

/-- Executions. Built on `St` (`graph.py:375-377`). -/
inductive Exec (b : ι) (s0 : St ι ν ε) : St ι ν ε → Prop where
  | refl : Exec b s0 s0
  | step {s s' : St ι ν ε} : Exec b s0 s → Step b s s' → Exec b s0 s'

end FindPathConc

end Verif
