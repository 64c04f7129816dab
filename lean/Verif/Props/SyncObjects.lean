import Verif.Props.Sync

/-!
# C184, C185, C187: graphs and piles shared by threads
-/

set_option linter.unusedSectionVars false
set_option linter.unusedVariables false
set_option linter.unusedSimpArgs false

namespace Verif.GraphSync

open Verif.Sync Verif.PileSync Serial Digraph

variable {ι ν ε : Type} [DecidableEq ι]

/-- What a call does to a graph as the user sees it. -/
def spec (op : Graph.Op ι ν ε) (s : SG ι ν ε) : SG ι ν ε × Except Exc (Graph.Out ι ν ε) := (s.next op, (s.step op).map Prod.snd)

/-- The machine: every thread makes its calls on one graph, initially empty. -/
def threads (ops : Nat → List (Graph.Op ι ν ε)) : State (Graph ι ν ε) (Except Exc (Graph.Out ι ν ε)) :=
  init {} (fun t => (ops t).map (fun op => withLock 0 (body op)))

/-- **C184**.  Any number of threads call `add_node`, `remove_node`, `add_edge` and `remove_edge` on one graph: under every schedule there is
one order of the calls, only growing, in program and real-time order, such that every thread has received what the calls in that order return or
raise, and whenever no call is in progress the graph shows the nodes and edges this order leaves. -/
theorem C184_graph_mutators_linearizable (ops : Nat → List (Graph.Op ι ν ε)) (sched : Nat → Nat) :
    ∃ log : Nat → List (Nat × Graph.Op ι ν ε), ∀ n,
      Explains spec ops {} Graph.Shows 0 (stateAt (threads ops) sched n) (log n) ∧ log n <+: log (n + 1) := by
  obtain ⟨log, h⟩ := C182_linearizable body (fun op g => Graph.step g op) (fun op g => body_exec op g) 0 3 ops
    (fun _ op _ => body_nested op) ({} : Graph ι ν ε) sched
  refine ⟨log, fun n => ⟨(h n).1.abstract (Rel := fun g s => Graph.GInv g ∧ Graph.Cfg g ∧ s = Graph.view g) ?_ ?_ ?_, (h n).2⟩⟩
  · rintro op g s ⟨hg, hc, hv⟩; rw [hv]
    have := Graph.step_spec hg hc op
    exact ⟨⟨hg.step op, hc.step hg op, this.2.symm⟩, this.1⟩
  · exact ⟨Graph.ginv_empty, Graph.cfg_empty, rfl⟩
  · rintro g s ⟨hg, hc, hv⟩; rw [hv]
    exact (Graph.shows_iff hg _).2 rfl

/-- **C184** (end points).  Whenever no call is in progress every edge of the graph connects two of its nodes. -/
theorem C184_graph_endpoints (ops : Nat → List (Graph.Op ι ν ε)) (sched : Nat → Nat) (n : Nat)
    (hfree : (stateAt (threads ops) sched n).locks 0 = none) :
    ∃ s, Graph.Shows (stateAt (threads ops) sched n).shared s ∧ ∀ e ∈ s.edges, s.IsNode e.data.head ∧ s.IsNode e.data.tail := by
  obtain ⟨log, h⟩ := C182_linearizable body (fun op g => Graph.step g op) (fun op g => body_exec op g) 0 3 ops
    (fun _ op _ => body_nested op) ({} : Graph ι ν ε) sched
  have hs := (h n).1.shared hfree
  have hrun : ∀ (l : List (Nat × Graph.Op ι ν ε)) (g : Graph ι ν ε), state (fun op g => Graph.step g op) g l = Graph.run g (l.map Prod.snd) := by
    intro l
    induction l with
    | nil => intro g; rfl
    | cons c l ih => intro g; exact ih _
  rw [hrun] at hs
  have hsh := (Graph.C15_history ((log n).map Prod.snd) (Graph.Op.addNode none)).1
  refine ⟨_, by show Graph.Shows (stateAt (threads ops) sched n).shared _; exact hs ▸ hsh, Graph.C15_endpoints _ _ hsh⟩

/-- **C184** (progress).  The calls of any number of threads can always be completed. -/
theorem C184_graph_calls_complete (ops : Nat → List (Graph.Op ι ν ε)) (sched : List Nat) (N : Nat) :
    ∃ more, ∀ t < N, Done (run (threads ops) (sched ++ more)) t :=
  C183_all_calls_can_complete body 0 3 ops (fun _ op _ => body_nested op) {} sched N

/-- Threads that call methods of a graph and, directly, methods of its two piles never deadlock. -/
theorem C183_graph_and_piles (calls : Nat → List (Graph.Op ι ν ε ⊕ PileSync.Call ι Unit ν ⊕ PileSync.Call ι Unit (EdgeData ι ε)))
    (prog : (Graph.Op ι ν ε ⊕ PileSync.Call ι Unit ν ⊕ PileSync.Call ι Unit (EdgeData ι ε)) → Prog (Graph ι ν ε) Unit)
    (hg : ∀ op, prog (.inl op) = (withLock 0 (body op)).bind (fun _ => .ret ()))
    (hn : ∀ c, prog (.inr (.inl c)) = (withLock 1 (PileSync.body nodesL Graph.anySub c)).bind (fun _ => .ret ()))
    (he : ∀ c, prog (.inr (.inr c)) = (withLock 2 (PileSync.body edgesL Graph.anySub c)).bind (fun _ => .ret ()))
    (g : Graph ι ν ε) (sched : List Nat) (t : Nat) (ht : ¬ Done (run (init g (fun t => (calls t).map prog)) sched) t) :
    ∃ u, ¬ Done (run (init g (fun t => (calls t).map prog)) sched) u ∧ ¬ Waits (run (init g (fun t => (calls t).map prog)) sched) u := by
  refine C183_no_deadlock 3 _ ?_ g sched t ht
  intro t p hp
  simp only [List.mem_map] at hp
  obtain ⟨c, -, rfl⟩ := hp
  rcases c with op | c | c
  · rw [hg]
    exact Nested.bind (fun _ => Nested.ret _) _ _ (Nested.withLock (by simp [MayTake]) (body_nested op))
  · rw [hn]
    exact Nested.bind (fun _ => Nested.ret _) _ _ (Nested.withLock (by simp [MayTake]) (PileSync.body_nested _ _ c))
  · rw [he]
    exact Nested.bind (fun _ => Nested.ret _) _ _ (Nested.withLock (by simp [MayTake]) (PileSync.body_nested _ _ c))

/-- A node and an edge for the examples. -/
def nd (n : Nat) : Item Nat Unit Unit := ⟨n, (), ()⟩
@[inherit_doc nd] def ed (e h t : Nat) : Item Nat Unit (EdgeData Nat Unit) := ⟨e, (), ⟨h, t, ()⟩⟩

/-- Two threads: one builds 1 → 2, the other removes node 1. -/
def two : Nat → List (Graph.Op Nat Unit Unit)
  | 0 => [.addNode (some (nd 1)), .addNode (some (nd 2)), .addEdge (some (ed 5 1 2))]
  | 1 => [.removeNode .id (some 1)]
  | _ => []

/-- Non-vacuity of C184: the second thread is scheduled while the first is in the middle of `add_edge`, waits, and then removes the node and the edge. -/
example :
    let m := run (threads two) (List.replicate 40 0 ++ [1, 1, 1, 1] ++ List.replicate 40 0 ++ List.replicate 60 1)
    (m.threads 0).out.length = 3 ∧ (m.threads 1).out.length = 1 ∧ m.locks 0 = none ∧ m.shared.nodes.order = [2] ∧ m.shared.edges.order = [] := by
  decide +kernel

/-! ## C185 — queries -/

/-- The machine with queries. -/
def threads2 (g : Graph ι ν ε) (cs : Nat → List (Call2 ι ν ε)) : State (Graph ι ν ε) (Except Exc (Res2 ι ν ε)) :=
  init g (fun t => (cs t).map call2)

/-- The graph 1 → 2 with edge 5. -/
def g12 : Graph Nat Unit Unit := Graph.run {} [.addNode (some (nd 1)), .addNode (some (nd 2)), .addEdge (some (ed 5 1 2))]

/-- One thread asks for the predecessors of 2, another removes the edge. -/
def race : Nat → List (Call2 Nat Unit Unit)
  | 0 => [.predecessors .id (some 2)]
  | 1 => [.op (.removeEdge (some 5))]
  | _ => []

/-- Did the first result of a thread raise `NotFoundError`? -/
def sawNotFound (l : List (Except Exc (Res2 Nat Unit Unit))) : Bool :=
  match l with
  | .error .notFound :: _ => true
  | _ => false

/-- **C185 fails**: `get_predecessors(2)` raises `NotFoundError` although node 2 is in the graph throughout, when another thread removes an edge into 2
after the loop has got the id of the edge and before the edge is looked up. -/
theorem C185_query_violation :
    let m := run (threads2 g12 race) ([0, 0, 0] ++ List.replicate 40 1 ++ List.replicate 20 0)
    sawNotFound (m.threads 0).out = true ∧ (m.threads 1).out.length = 1 ∧ m.locks 0 = none ∧ m.shared.nodes.order = [1, 2] := by
  decide +kernel

end Verif.GraphSync

namespace Verif.PileSync

open Verif.Sync Serial

variable {ι γ δ : Type} [DecidableEq ι] [DecidableEq γ]

/-- What a call does to the list of items the user sees; `ok x` tells whether `x` satisfies the type constraint. -/
def spec (ok : Item ι γ δ → Bool) (c : Call ι γ δ) (l : List (Item ι γ δ)) : List (Item ι γ δ) × Except Exc (Pile.Out ι γ δ) :=
  match c with
  | .add a => OMap.step ok l (.add a)
  | .remove r => OMap.step ok l (.remove r)
  | .pop r d => OMap.step ok l (.pop r d)
  | .get r d => OMap.step ok l (.get r d)
  | .update a => OMap.step ok l (.update a)
  | .clear => OMap.step ok l .clear
  | .contains r => OMap.step ok l (.contains r)
  | .len => OMap.step ok l .len
  | .index i =>
    match Py.getIdx l i with
    | none => (l, .error .indexError)
    | some x => (l, .ok (.item x))

theorem index_abs {p : Pile ι γ δ} (h : Pile.Inv p) (i : Int) :
    (Pile.getByIndex p i).map (Pile.Out.item (ι := ι)) = (match Py.getIdx (Pile.abs p) i with
      | none => .error .indexError
      | some x => .ok (.item x)) := by
  unfold Pile.getByIndex Py.getIdx
  rw [Pile.order_length h]
  cases hn : Py.normIndex (Pile.abs p).length i with
  | none => rfl
  | some k =>
    simp only
    have h1 := Pile.getElem?_abs h k
    rw [h1]
    cases h2 : p.order[k]? with
    | none => rfl
    | some u =>
      simp only [Option.bind_some]
      cases h3 : p.items.get? u with
      | none =>
        exfalso
        have hm : u ∈ p.order := List.mem_of_getElem? h2
        have := (h.mem_iff u).1 hm
        rw [Dict.get?_eq_none_iff] at h3
        exact h3 this
      | some x => rfl

theorem seq_spec (sub : γ → γ → Bool) {p : Pile ι γ δ} (h : Pile.Inv p) (c : Call ι γ δ) :
    Pile.Inv (seq sub c p).1 ∧ (Pile.abs (seq sub c p).1, (seq sub c p).2) = spec (Pile.validType sub p.itemType p.strict) c (Pile.abs p)
      ∧ (seq sub c p).1.itemType = p.itemType ∧ (seq sub c p).1.strict = p.strict := by
  cases c with
  | index i =>
    refine ⟨h, ?_, rfl, rfl⟩
    simp only [seq, spec, index_abs h]
    cases Py.getIdx (Pile.abs p) i <;> rfl
  | add a => obtain ⟨h1, h2, h3, h4, -⟩ := Pile.step_refines sub h (.add a); exact ⟨h1, h2, h3, h4⟩
  | remove r => obtain ⟨h1, h2, h3, h4, -⟩ := Pile.step_refines sub h (.remove r); exact ⟨h1, h2, h3, h4⟩
  | pop r d => obtain ⟨h1, h2, h3, h4, -⟩ := Pile.step_refines sub h (.pop r d); exact ⟨h1, h2, h3, h4⟩
  | get r d => obtain ⟨h1, h2, h3, h4, -⟩ := Pile.step_refines sub h (.get r d); exact ⟨h1, h2, h3, h4⟩
  | update a => obtain ⟨h1, h2, h3, h4, -⟩ := Pile.step_refines sub h (.update a); exact ⟨h1, h2, h3, h4⟩
  | clear => obtain ⟨h1, h2, h3, h4, -⟩ := Pile.step_refines sub h .clear; exact ⟨h1, h2, h3, h4⟩
  | contains r => obtain ⟨h1, h2, h3, h4, -⟩ := Pile.step_refines sub h (.contains r); exact ⟨h1, h2, h3, h4⟩
  | len => obtain ⟨h1, h2, h3, h4, -⟩ := Pile.step_refines sub h .len; exact ⟨h1, h2, h3, h4⟩

/-- The machine: every thread makes its calls on one pile. -/
def threads (sub : γ → γ → Bool) (p : Pile ι γ δ) (calls : Nat → List (Call ι γ δ)) : State (Pile ι γ δ) (Except Exc (Pile.Out ι γ δ)) :=
  init p (fun t => (calls t).map (fun c => withLock 0 (body (whole 0) sub c)))

/-- What the user sees of a pile: iteration, length, keys. -/
def ShowsList (p : Pile ι γ δ) (l : List (Item ι γ δ)) : Prop :=
  Pile.iter p = .ok l ∧ Pile.len p = l.length ∧ Pile.keys p = l.map Item.id

/-- **C187**.  Any number of threads call `add`, `remove`, `pop`, `get`, `update`, `clear`, `in`, `len` and `pile[i]` on one pile: under every
schedule there is one order of the calls, only growing, in program and real-time order, such that every thread has received what the calls in that
order return or raise, and whenever no call is in progress the pile shows the items this order leaves. -/
theorem C187_pile_linearizable (sub : γ → γ → Bool) (xs : List (Item ι γ δ)) (t : Option (List γ)) (s : Bool) (p₀ : Pile ι γ δ)
    (h₀ : Pile.mk' sub (xs.map some) t s none = .ok p₀) (ok : Item ι γ δ → Bool) (hok : ∀ x, ok x = true ↔ OMap.Satisfies sub t s x)
    (calls : Nat → List (Call ι γ δ)) (sched : Nat → Nat) :
    ∃ log : Nat → List (Nat × Call ι γ δ), ∀ n,
      Explains (spec ok) calls xs ShowsList 0 (stateAt (threads sub p₀ calls) sched n) (log n) ∧ log n <+: log (n + 1) := by
  obtain ⟨hi, ha, ht, hs, -⟩ := Pile.mk'_inv sub _ t s p₀ h₀
  have hx : Pile.abs p₀ = xs := (List.map_inj_right (fun _ _ h => Option.some.inj h)).1 ha
  obtain ⟨log, h⟩ := C182_linearizable (body (whole 0) sub) (seq sub) (fun c p => body_exec (whole_lawful 0) sub c p) 0 1 calls
    (fun _ c _ => body_nested _ _ c) p₀ sched
  have hv : ok = Pile.validType sub t s := by
    funext x
    have h1 := hok x
    rw [← Pile.validType_iff] at h1
    cases h2 : ok x <;> cases h3 : Pile.validType sub t s x <;> simp_all
  refine ⟨log, fun n => ⟨(h n).1.abstract (Rel := fun p l => Pile.Inv p ∧ l = Pile.abs p ∧ p.itemType = t ∧ p.strict = s) ?_ ?_ ?_, (h n).2⟩⟩
  · rintro c p l ⟨hp, hl, h1, h2⟩; rw [hl]
    obtain ⟨g1, g2, g3, g4⟩ := seq_spec sub hp c
    rw [h1, h2, ← hv] at g2
    exact ⟨⟨g1, (congrArg Prod.fst g2).symm, by rw [g3, h1], by rw [g4, h2]⟩, congrArg Prod.snd g2⟩
  · exact ⟨hi, hx.symm, ht, hs⟩
  · rintro p l ⟨hp, hl, -, -⟩; rw [hl]
    refine ⟨Pile.iter_eq hp, ?_, ?_⟩
    · show p.items.length = _
      exact (Pile.abs_length hp).symm
    · exact (Pile.abs_ids hp).symm

/-- **C187** (progress). -/
theorem C187_pile_calls_complete (sub : γ → γ → Bool) (p : Pile ι γ δ) (calls : Nat → List (Call ι γ δ)) (sched : List Nat) (N : Nat) :
    ∃ more, ∀ t < N, Done (run (threads sub p calls) (sched ++ more)) t :=
  C183_all_calls_can_complete (body (whole 0) sub) 0 1 calls (fun _ c _ => body_nested _ _ c) p sched N

end Verif.PileSync
