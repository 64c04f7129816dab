import Verif.Lemmas.FindPathConc

/-!
# C227: `find_path` while other tasks change the graph

`Exec b (start g a) s` says that the state `s` is reached by the call `find_path(a, b, check_conditions=True)` on the graph `g`, with
`s.others` the calls other tasks made while conditions were awaited, `s.log` the answers of the conditions, `s.g` the graph now.
-/

set_option linter.unusedSectionVars false
set_option linter.unusedVariables false

namespace Verif.FindPathConc

open Graph Digraph

variable {ι ν ε : Type} [DecidableEq ι]

/-- The id of an edge is not used for a different edge: there is one edge per id, for the edges in the graph at the start and all
edges other tasks add. -/
def IdsNotReused (es : List (Item ι Unit (EdgeData ι ε))) (ops : List (Op ι ν ε)) : Prop :=
  ∃ E : ι → Item ι Unit (EdgeData ι ε), (∀ x ∈ es, E x.id = x) ∧ ∀ x, Op.addEdge (some x) ∈ ops → E x.id = x

/-- **C227** (a returned path).  Whatever other tasks add or remove meanwhile: if `find_path` returns a path, it is a walk from the
start to the end along edges that are in the graph at the moment of return, and the condition of each of its edges has answered
yes during the call. -/
theorem C227_path (ops : List (Op ι ν ε)) (s0 : SG ι ν ε) (h0 : Shows (run {} ops) s0) (a b : ι)
    (s : St ι ν ε) (hs : Exec b (start (run {} ops) a) s) (hid : IdsNotReused s0.edges s.others)
    (p : List (Item ι Unit (EdgeData ι ε))) (hp : s.pc = .done (.path p)) :
    ∃ s1, Shows s.g s1 ∧ Walk s1.edges a p b ∧ ∀ x ∈ p, (x.id, true) ∈ s.log := by
  obtain ⟨h, hc⟩ := run_ok ops (ginv_empty (ν := ν) (ε := ε)) cfg_empty
  rw [shows_iff h] at h0
  subst h0
  obtain ⟨E, h1, h2⟩ := hid
  have hi := sinv_exec h hc h1 hs h2
  have hpc := hi.pc
  rw [hp] at hpc
  exact ⟨view s.g, (shows_iff hi.ginv _).2 rfl, hpc.1, hpc.2⟩

/-- **C227** (no path).  If other tasks only add nodes and edges, `None` is returned only if every walk from the start to the end in
the graph at the start uses an edge whose condition has answered no. -/
theorem C227_none (ops : List (Op ι ν ε)) (s0 : SG ι ν ε) (h0 : Shows (run {} ops) s0) (a b : ι) (ha : s0.IsNode a)
    (s : St ι ν ε) (hs : Exec b (start (run {} ops) a) s) (hadd : ∀ op ∈ s.others, Adding op) (hp : s.pc = .done .none) :
    ∀ w, Walk s0.edges a w b → ∃ x ∈ w, (x.id, false) ∈ s.log := by
  obtain ⟨h, hc⟩ := run_ok ops (ginv_empty (ν := ν) (ε := ε)) cfg_empty
  rw [shows_iff h] at h0
  subst h0
  rw [isNode_iff h] at ha
  obtain ⟨D, hi⟩ := ainv_exec h ha hs hadd
  have hpc := hi.pc
  rw [hp] at hpc
  exact hpc

/-- **C227** (exceptions).  If other tasks only add nodes and edges, the search itself raises nothing but `RuntimeError`, and that only
after `add_edge` has been called; in particular it never raises when nobody touches the graph. -/
theorem C227_raises (ops : List (Op ι ν ε)) (s0 : SG ι ν ε) (h0 : Shows (run {} ops) s0) (a b : ι) (ha : s0.IsNode a)
    (s : St ι ν ε) (hs : Exec b (start (run {} ops) a) s) (hadd : ∀ op ∈ s.others, Adding op) (e : Exc)
    (hp : s.pc = .done (.raised e)) : e = .runtimeError ∧ ∃ x, Op.addEdge (some x) ∈ s.others := by
  obtain ⟨h, hc⟩ := run_ok ops (ginv_empty (ν := ν) (ε := ε)) cfg_empty
  rw [shows_iff h] at h0
  subst h0
  rw [isNode_iff h] at ha
  obtain ⟨D, hi⟩ := ainv_exec h ha hs hadd
  have hpc := hi.pc
  rw [hp] at hpc
  exact hpc

/-! ### Witnesses -/

/-- Nodes 1, 2, 3, 4; edges 10: 1 → 2, 11: 1 → 3, 12: 2 → 4. -/
def w : List (Op Nat Unit Unit) :=
  [.addNode (some ⟨1, (), ()⟩), .addNode (some ⟨2, (), ()⟩), .addNode (some ⟨3, (), ()⟩), .addNode (some ⟨4, (), ()⟩),
   .addEdge (some ⟨10, (), ⟨1, 2, ()⟩⟩), .addEdge (some ⟨12, (), ⟨2, 4, ()⟩⟩)]

/-- **C227** limit: the search for a path from 1 to 4 raises `RuntimeError` when another task adds a further edge at node 1 while the
condition of the only edge of node 1 is awaited, although the path is in the graph all the time and every condition says yes. -/
theorem C227_add_limit : ∃ s : St Nat Unit Unit, Exec 4 (start (run {} w) 1) s ∧ s.pc = .done (.raised .runtimeError) ∧
    s.others = [.addEdge (some ⟨20, (), ⟨1, 3, ()⟩⟩)] ∧ s.log = [(10, true)] :=
  ⟨_, .step (.step (.step (.step (.step .refl
    (.expand _ 1 [] [10] rfl rfl (by decide) rfl))
    (.ask _ _ 10 ⟨10, (), ⟨1, 2, ()⟩⟩ rfl rfl (by decide) (Or.inl (by decide)) rfl (by decide)))
    (.other _ _ 10 2 (.addEdge (some ⟨20, (), ⟨1, 3, ()⟩⟩)) rfl))
    (.yes _ _ 10 2 rfl))
    (.resized _ _ rfl (by decide)), rfl, rfl, rfl⟩

/-- **C227** limit: a path found and then broken: the edge 10 is removed while the condition of edge 12 is awaited; the call raises
`NotFoundError`. -/
theorem C227_remove_limit : ∃ s : St Nat Unit Unit, Exec 4 (start (run {} w) 1) s ∧ s.pc = .done (.raised .notFound) ∧
    s.others = [.removeEdge (some 10)] :=
  ⟨_, .step (.step (.step (.step (.step (.step (.step (.step (.step (.step .refl
    (.expand _ 1 [] [10] rfl rfl (by decide) rfl))
    (.ask _ _ 10 ⟨10, (), ⟨1, 2, ()⟩⟩ rfl rfl (by decide) (Or.inl (by decide)) rfl (by decide)))
    (.yes _ _ 10 2 rfl))
    (.stop _ _ rfl rfl (Or.inl (by decide))))
    (.expand _ 2 [] [12] rfl rfl (by decide) rfl))
    (.ask _ _ 12 ⟨12, (), ⟨2, 4, ()⟩⟩ rfl rfl (by decide) (Or.inl (by decide)) rfl (by decide)))
    (.other _ _ 12 4 (.removeEdge (some 10)) rfl))
    (.yes _ _ 12 4 rfl))
    (.stop _ _ rfl rfl (Or.inl (by decide))))
    (.goal _ [] 5 (.error .notFound) rfl rfl rfl), rfl, rfl⟩

/-- **C227** limit: node 3, waiting in the queue, is removed while the condition of edge 12 is awaited; the call raises `KeyError`. -/
theorem C227_node_limit : ∃ s : St Nat Unit Unit,
    Exec 4 (start (run {} (w ++ [.addEdge (some ⟨11, (), ⟨1, 3, ()⟩⟩)])) 1) s ∧ s.pc = .done (.raised .keyError) ∧
    s.others.length = 1 :=
  ⟨_, .step (.step (.step (.step (.step (.step (.step (.step (.step (.step (.step (.step .refl
    (.expand _ 1 [] [10, 11] rfl rfl (by decide) rfl))
    (.ask _ _ 10 ⟨10, (), ⟨1, 2, ()⟩⟩ rfl rfl (by decide) (Or.inl (by decide)) rfl (by decide)))
    (.yes _ _ 10 2 rfl))
    (.ask _ _ 11 ⟨11, (), ⟨1, 3, ()⟩⟩ rfl rfl (by decide) (Or.inl (by decide)) rfl (by decide)))
    (.yes _ _ 11 3 rfl))
    (.stop _ _ rfl rfl (Or.inl (by decide))))
    (.expand _ 2 [3] [12] rfl rfl (by decide) rfl))
    (.ask _ _ 12 ⟨12, (), ⟨2, 4, ()⟩⟩ rfl rfl (by decide) (Or.inl (by decide)) rfl (by decide)))
    (.other _ _ 12 4 (.removeNode .id (some 3)) rfl))
    (.yes _ _ 12 4 rfl))
    (.stop _ _ rfl rfl (Or.inl (by decide))))
    (.gone _ 3 [4] rfl rfl (by decide) rfl), rfl, rfl⟩

/-- **C227** limit: the domain "ids are not reused" is needed.  Edge 10 is replaced by an edge 3 → 1 with the same id while the
condition of edge 12 is awaited; the call returns edges that do not form a walk. -/
theorem C227_reuse_limit : ∃ s : St Nat Unit Unit, Exec 4 (start (run {} w) 1) s ∧
    s.pc = .done (.path [⟨10, (), ⟨3, 1, ()⟩⟩, ⟨12, (), ⟨2, 4, ()⟩⟩]) ∧
    s.others = [.removeEdge (some 10), .addEdge (some ⟨10, (), ⟨3, 1, ()⟩⟩)] :=
  ⟨_, .step (.step (.step (.step (.step (.step (.step (.step (.step (.step (.step .refl
    (.expand _ 1 [] [10] rfl rfl (by decide) rfl))
    (.ask _ _ 10 ⟨10, (), ⟨1, 2, ()⟩⟩ rfl rfl (by decide) (Or.inl (by decide)) rfl (by decide)))
    (.yes _ _ 10 2 rfl))
    (.stop _ _ rfl rfl (Or.inl (by decide))))
    (.expand _ 2 [] [12] rfl rfl (by decide) rfl))
    (.ask _ _ 12 ⟨12, (), ⟨2, 4, ()⟩⟩ rfl rfl (by decide) (Or.inl (by decide)) rfl (by decide)))
    (.other _ _ 12 4 (.removeEdge (some 10)) rfl))
    (.other _ _ 12 4 (.addEdge (some ⟨10, (), ⟨3, 1, ()⟩⟩)) rfl))
    (.yes _ _ 12 4 rfl))
    (.stop _ _ rfl rfl (Or.inl (by decide))))
    (.goal _ [] 5 (.ok [⟨10, (), ⟨3, 1, ()⟩⟩, ⟨12, (), ⟨2, 4, ()⟩⟩]) rfl rfl rfl), rfl, rfl⟩

/-- Non-vacuity of `C227_path`: an edge 21 from node 3 is added while the condition of edge 12 is awaited; the path is returned. -/
example : ∃ s : St Nat Unit Unit, Exec 4 (start (run {} w) 1) s ∧
    s.pc = .done (.path [⟨10, (), ⟨1, 2, ()⟩⟩, ⟨12, (), ⟨2, 4, ()⟩⟩]) ∧
    s.others = [.addEdge (some ⟨21, (), ⟨3, 4, ()⟩⟩)] :=
  ⟨_, .step (.step (.step (.step (.step (.step (.step (.step (.step (.step .refl
    (.expand _ 1 [] [10] rfl rfl (by decide) rfl))
    (.ask _ _ 10 ⟨10, (), ⟨1, 2, ()⟩⟩ rfl rfl (by decide) (Or.inl (by decide)) rfl (by decide)))
    (.yes _ _ 10 2 rfl))
    (.stop _ _ rfl rfl (Or.inl (by decide))))
    (.expand _ 2 [] [12] rfl rfl (by decide) rfl))
    (.ask _ _ 12 ⟨12, (), ⟨2, 4, ()⟩⟩ rfl rfl (by decide) (Or.inl (by decide)) rfl (by decide)))
    (.other _ _ 12 4 (.addEdge (some ⟨21, (), ⟨3, 4, ()⟩⟩)) rfl))
    (.yes _ _ 12 4 rfl))
    (.stop _ _ rfl rfl (Or.inl (by decide))))
    (.goal _ [] 5
      (.ok [⟨10, (), ⟨1, 2, ()⟩⟩, ⟨12, (), ⟨2, 4, ()⟩⟩]) rfl rfl rfl), rfl, rfl⟩

/-- Non-vacuity of `C227_none`: the condition of edge 10 says no while an edge is added elsewhere. -/
example : ∃ s : St Nat Unit Unit, Exec 4 (start (run {} w) 1) s ∧ s.pc = .done .none ∧ s.log = [(10, false)] ∧
    s.others = [.addEdge (some ⟨21, (), ⟨3, 4, ()⟩⟩)] :=
  ⟨_, .step (.step (.step (.step (.step (.step .refl
    (.expand _ 1 [] [10] rfl rfl (by decide) rfl))
    (.ask _ _ 10 ⟨10, (), ⟨1, 2, ()⟩⟩ rfl rfl (by decide) (Or.inl (by decide)) rfl (by decide)))
    (.other _ _ 10 2 (.addEdge (some ⟨21, (), ⟨3, 4, ()⟩⟩)) rfl))
    (.no _ _ 10 2 rfl))
    (.stop _ _ rfl rfl (Or.inl (by decide))))
    (.exhausted _ rfl rfl), rfl, rfl, rfl⟩

end Verif.FindPathConc
