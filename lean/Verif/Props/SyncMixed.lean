import Verif.Props.SyncObjects
import Verif.Lemmas.SyncDrop
import Verif.Lemmas.SyncStay
import Verif.Props.Flow

/-!
# C185, C186, C188, C189: unsynchronized methods next to synchronized ones
-/

set_option linter.unusedSectionVars false
set_option linter.unusedVariables false
set_option linter.unusedSimpArgs false

namespace Verif.GraphSync

open Verif.Sync Verif.PileSync Serial Digraph

variable {ι ν ε : Type} [DecidableEq ι]

/-- Calls that remove nothing: `add_node`, `add_edge`, `get_predecessors` of an id. -/
def Call2.adds : Call2 ι ν ε → Prop
  | .op (.addNode _) => True
  | .op (.addEdge _) => True
  | .op (.removeNode _ _) => False
  | .op (.removeEdge _) => False
  | .predecessors _ r => r ≠ none

/-- The result of a query: a list of nodes of the graph; nothing is claimed about other results. -/
def QueryOk (r : Except Exc (Res2 ι ν ε)) (g : Graph ι ν ε) : Prop :=
  ∃ l, r = .ok (.list l) ∧ ∀ x ∈ l, Pile.contains g.nodes (some x.id) = true

/-- Thread 0 queries, the others make the calls `cs`. -/
def querying (qs : List (SetOrder ι × ι)) (cs : Nat → List (Call2 ι ν ε)) (t : Nat) : List (Call2 ι ν ε) :=
  if t = 0 then qs.map (fun q => .predecessors q.1 (some q.2)) else cs t

/-- Some call of another thread adds an edge that points to `n`. -/
def AddsInto (cs : Nat → List (Call2 ι ν ε)) (n : ι) : Prop :=
  ∃ t, t ≠ 0 ∧ ∃ x : Item ι Unit (EdgeData ι ε), .op (.addEdge (some x)) ∈ cs t ∧ x.data.tail = n

/-- **C185** where nothing is removed: threads add nodes and edges to a graph built before (`ops₀`) while thread 0 calls `get_predecessors` any
number of times.  Under every schedule a query returns nodes of the graph, or it raises `RuntimeError` ("Set changed size during iteration") and some
other thread adds an edge that points to a node asked about. -/
theorem C185_while_adding_partial (ops₀ : List (Graph.Op ι ν ε)) (qs : List (SetOrder ι × ι)) (cs : Nat → List (Call2 ι ν ε))
    (hcs : ∀ t, ∀ c ∈ cs t, c.adds) (sched : List Nat) :
    let m := run (threads2 (Graph.run {} ops₀) (querying qs cs)) sched
    ∀ r ∈ (m.threads 0).out, QueryOk r m.shared ∨ (r = .error .runtimeError ∧ ∃ q ∈ qs, AddsInto cs q.2) := by
  intro m
  obtain ⟨h, hc⟩ := Graph.run_ok ops₀ (Graph.ginv_empty (ν := ν) (ε := ε)) Graph.cfg_empty
  have hI : Linked (Graph.run {} ops₀ : Graph ι ν ε) := by
    have key : ∀ n, ∀ e ∈ Graph.adj (Graph.run {} ops₀ : Graph ι ν ε).inn n,
        ∃ x, (Graph.run {} ops₀ : Graph ι ν ε).edges.items.get? e = some x ∧ x.data.tail = n := by
      intro n e he
      simp only [Graph.adj] at he
      cases hl : (Graph.run {} ops₀ : Graph ι ν ε).inn.get? n with
      | none => rw [hl] at he; simp at he
      | some l =>
        rw [hl] at he
        exact (h.inn.spec n l hl e).1 he
    refine ⟨fun n e he => ?_, fun e x hx => ?_, fun u x hx => h.nodes.ids u x hx, fun n hn => ?_⟩
    · obtain ⟨x, hx, -⟩ := key n e he
      exact Dict.mem_keys_of_get? hx
    · exact (h.nodes.mem_iff _).1 (h.ends e x hx).1
    · obtain ⟨e, he⟩ := List.exists_mem_of_ne_nil _ hn
      obtain ⟨x, hx, rfl⟩ := key n e he
      exact (h.nodes.mem_iff _).1 (h.ends e x hx).2
  let N : ι → Prop := fun n => ¬ AddsInto cs n
  let Q : Nat → Except Exc (Res2 ι ν ε) → Graph ι ν ε → Prop :=
    fun t r g => t = 0 → QueryOk r g ∨ (r = .error .runtimeError ∧ ∃ q ∈ qs, AddsInto cs q.2)
  have hQ : ∀ t a, Stable (σ := Graph ι ν ε) Linked (Grows N) (Q t a) := by
    intro t a s s' _ ha hr h0
    refine (ha h0).imp (fun ha => ?_) (fun ha => ha)
    obtain ⟨l, h1, h2⟩ := ha
    refine ⟨l, h1, fun x hx => ?_⟩
    have := h2 x hx
    simp only [Pile.contains, Dict.has_iff] at this ⊢
    exact hr.1 _ this
  have hpre : ∀ (o : SetOrder ι) (n : ι) (t : Nat), (t = 0 → ∃ q ∈ qs, q.2 = n) →
      RG Linked (Grows N) (Q t) (fun _ => True) (call2 (ν := ν) (ε := ε) (.predecessors o (some n))) := by
    intro o n t hn
    refine RG.mapOkE stable_inGraph (getPredecessors_rg o n) ?_ ?_
    · intro l g _ hl _
      refine Or.inl ⟨l, rfl, fun x hx => ?_⟩
      simp only [Pile.contains, Dict.has_iff]
      exact hl x hx
    · intro e g he h0
      obtain ⟨q, hq, e'⟩ := hn h0
      refine Or.inr ⟨by rw [he.1], q, hq, Classical.byContradiction fun h => he.2 ?_⟩
      rw [← e']; exact h
  have hinv : RGInv Linked (Grows N) Q (fun _ => True) m := by
    refine RGInv.run stable_true hQ sched (RGInv.init hI trivial ?_)
    intro t p hp
    by_cases h0 : t = 0
    · simp only [querying, if_pos h0, List.mem_map] at hp
      obtain ⟨c, ⟨q, hq, rfl⟩, rfl⟩ := hp
      exact hpre _ _ _ (fun _ => ⟨q, hq, rfl⟩)
    · simp only [querying, if_neg h0, List.mem_map] at hp
      obtain ⟨c, hc, rfl⟩ := hp
      have ha := hcs t c hc
      have any : ∀ (b : Prog (Graph ι ν ε) (Except Exc (Res2 ι ν ε))), RG Linked (Grows N) (fun _ _ => True) (fun _ => True) b →
          RG Linked (Grows N) (Q t) (fun _ => True) b := fun b hb => RG.post (fun _ _ _ _ h => absurd h h0) b _ hb
      cases c with
      | predecessors o r =>
        cases r with
        | none => exact absurd rfl ha
        | some n => exact hpre o n t (fun h => absurd h h0)
      | op c =>
        refine any _ (RG.withLock (fun _ => stable_true) ?_)
        cases c with
        | addNode a =>
          exact RG.mapOk (E := True) (fun _ => stable_true)
            (RG.mapOk (Q := okPost (fun _ _ => True) True) (E := True) (fun _ => stable_true) (addNode_rg a) (fun _ _ _ _ => trivial) (fun _ _ _ => trivial))
            (fun _ _ _ _ => trivial) (fun _ _ _ => trivial)
        | addEdge a =>
          have hN : ∀ x, a = some x → ¬ N x.data.tail := fun x hx hn => hn ⟨t, h0, x, hx ▸ hc, rfl⟩
          exact RG.mapOk (E := True) (fun _ => stable_true)
            (RG.mapOk (Q := okPost (fun _ _ => True) True) (E := True) (fun _ => stable_true) (addEdge_rg a hN) (fun _ _ _ _ => trivial) (fun _ _ _ => trivial))
            (fun _ _ _ _ => trivial) (fun _ _ _ => trivial)
        | removeNode o r => exact ha.elim
        | removeEdge r => exact ha.elim
  intro r hr
  exact hinv.out 0 r hr rfl

theorem headNodes_exec (n : ι) (size : Nat) (es : List ι) : ∀ g : Graph ι ν ε, (Graph.adj g.inn n).length = size →
    exec (headNodes n size es) g = (g, Graph.mapE (Graph.headNode g) es) := by
  induction es with
  | nil =>
    intro g hs
    simp only [headNodes, exec_andThen, exec_act, nextInn, if_pos hs, contE_ok]
    rfl
  | cons e es ih =>
    intro g hs
    simp only [headNodes, Graph.mapE, exec_andThen, exec_act, nextInn, if_pos hs, contE_ok, exec_withLock, edges_act, PileSync.read, need, Graph.headNode, Graph.edge]
    cases g.edges.items.get? e with
    | none => rfl
    | some ed =>
      simp only [contE_ok, exec_andThen, exec_withLock, nodes_act, PileSync.read, need, Graph.node]
      cases g.nodes.items.get? ed.data.head with
      | none => rfl
      | some x =>
        simp only [contE_ok, exec_andThen, ih g hs]
        cases Graph.mapE (Graph.headNode g) es <;> rfl

/-- A query that is not interrupted does what the sequential model of `Graph` says. -/
theorem getPredecessors_exec (o : SetOrder ι) (r : Ref ι) (g : Graph ι ν ε) :
    exec (getPredecessors o r) g = (g, Graph.getPredecessors o g r) := by
  cases r with
  | none => rfl
  | some n =>
    simp only [getPredecessors, exec_andThen, exec_act, openInn, Graph.getPredecessors]
    cases hg : g.inn.get? n with
    | none =>
      simp only [contE_ok, walkInn, Graph.adj, hg, Option.getD_none]
      have : o.inn n ([] : List ι) = [] := by
        have := o.inn_perm n ([] : List ι)
        exact this.eq_nil
      rw [this]; rfl
    | some l =>
      simp only [contE_ok, walkInn]
      rw [headNodes_exec n _ _ g (by simp only [Graph.adj, hg, Option.getD_some]; exact (o.inn_perm n l).length_eq.symm)]
      simp only [Graph.adj, hg, Option.getD_some]

/-- Thread 0 asks for the predecessors of 2, thread 1 adds the edge 6 from 2 to `n`. -/
def pointing (n : Nat) : Nat → List (Call2 Nat Unit Unit) :=
  querying [(.id, 2)] (fun t => if t = 1 then [.op (.addEdge (some (ed 6 2 n)))] else [])

/-- Non-vacuity of C185: the query goes on while another thread adds an edge that does not point to the node asked about. -/
example :
    let m := run (threads2 g12 (pointing 1)) ([0, 0] ++ List.replicate 40 1 ++ List.replicate 30 0)
    (match (m.threads 0).out with | [.ok (.list l)] => l.map Item.id | _ => []) = [1] ∧
      (m.threads 1).out.length = 1 ∧ m.shared.edges.order = [5, 6] := by
  decide +kernel

/-- Did the first result of a thread raise `RuntimeError`? -/
def sawRuntimeError (l : List (Except Exc (Res2 Nat Unit Unit))) : Bool :=
  match l with
  | .error .runtimeError :: _ => true
  | _ => false

/-- **C185 fails** where nothing is removed: `get_predecessors(2)` raises `RuntimeError`, because another thread adds an edge that points to 2 while the
loop runs over the live set of edges. -/
theorem C185_add_edge_violation :
    let m := run (threads2 g12 (pointing 2)) ([0, 0] ++ List.replicate 40 1 ++ List.replicate 30 0)
    sawRuntimeError (m.threads 0).out = true ∧ (m.threads 1).out.length = 1 ∧ m.shared.edges.order = [5, 6] := by
  decide +kernel

end Verif.GraphSync

namespace Verif.FlowSync

open Verif.Sync Verif.PileSync Serial

variable {ι γ δ : Type} [DecidableEq ι] [DecidableEq γ]

/-- The machine: every thread makes its calls on one flow; `fuel` bounds the loops of `remove_item`. -/
def threads (sub : γ → γ → Bool) (fuel : Nat) (f : Flow ι γ δ) (cs : Nat → List (Flow.Op ι γ δ)) : State (Flow ι γ δ) (Except Exc (Flow.Out ι γ δ)) :=
  init f (fun t => (cs t).map (call sub fuel))

/-- A progression of the flow lists `x`, which is no item of the flow. -/
def Dangling (x : ι) (f : Flow ι γ δ) : Prop :=
  ∃ (u : ι) (p : Flow.Prog ι), Pile.get f.progs (some u) false = .ok (some p) ∧ x ∈ p.data.order ∧ Pile.contains f.items (some x) = false

/-- The call puts a new reference to `x` into the flow. -/
def AddsRef (x : ι) : Flow.Op ι γ δ → Prop
  | .addProgression p => x ∈ p.data.order
  | .addItem (some y) ps => y.id = x ∧ ∃ a ∈ ps, a ≠ .foreign
  | _ => False

/-- The call takes a progression out of the flow. -/
def TakesProgression : Flow.Op ι γ δ → Prop
  | .removeProgression _ => True
  | _ => False

theorem get_progs {pp : Pile ι Unit (ProgData ι)} {u : ι} {p : Flow.Prog ι} (h : Pile.get pp (some u) false = .ok (some p)) : pp.items.get? u = some p := by
  simp only [Pile.get] at h
  cases hg : pp.items.get? u with
  | none => rw [hg] at h; simp at h
  | some q => rw [hg] at h; simp at h; rw [h]

theorem mapOk_true {β : Type} {I : Flow ι γ δ → Prop} {R : Flow ι γ δ → Flow ι γ δ → Prop} (k : β → Flow.Out ι γ δ) (b : Prog (Flow ι γ δ) (Except Exc β))
    (hb : RG I R (okPost (fun _ _ => True) True) (fun _ => True) b) : RG I R (fun _ _ => True) (fun _ => True) (mapOk k b) :=
  RG.mapOk (E := True) (fun _ => stable_true) hb (fun _ _ _ _ => trivial) (fun _ _ _ => trivial)

/-- **C186** for the items that nobody removes: threads make any calls of `add_progression`, `remove_progression`, `add_item` and `remove_item` on one
flow; at every moment, also in the middle of calls, a progression lists an id that is no item only if some call removes this id. -/
theorem C186_kept_item_partial (sub : γ → γ → Bool) (xs : List (Pile.Arg ι γ δ)) (t : Option (List γ)) (s : Bool)
    (ps : List (Flow.Prog ι)) (f₀ : Flow ι γ δ) (h₀ : Flow.Built sub xs t s ps f₀) (cs : Nat → List (Flow.Op ι γ δ)) (fuel : Nat) (sched : List Nat) (x : ι)
    (hx : Dangling x (run (threads sub fuel f₀ cs) sched).shared) : ∃ t, Flow.Op.removeItem (some x) ∈ cs t := by
  apply Classical.byContradiction
  intro hno
  have hno : ∀ t, Flow.Op.removeItem (some x) ∉ cs t := fun t h => hno ⟨t, h⟩
  obtain ⟨h1, h2, h3⟩ := h₀.ok
  have hI : Sound (fun y => y = x) f₀ :=
    ⟨fun u _ hu => (h1.items.mem_iff u).1 hu, h1.items.wf, h1.progs.wf, fun u p hp x hx _ => (h1.items.mem_iff x).2 (h3 u p hp x hx)⟩
  have hinv : RGInv (α := Except Exc (Flow.Out ι γ δ)) (Sound (fun y => y = x)) (Grows (fun y => y = x)) (fun _ _ _ => True) (fun _ => True) (run (threads sub fuel f₀ cs) sched) := by
    refine RGInv.run stable_true (fun _ _ => stable_true) sched (RGInv.init hI trivial ?_)
    intro t q hq
    simp only [List.mem_map] at hq
    obtain ⟨c, hc, rfl⟩ := hq
    cases c with
    | addProgression p => exact RG.withLock (fun _ => stable_true) (mapOk_true _ _ (addProgression_rg p))
    | removeProgression k => exact RG.withLock (fun _ => stable_true) (mapOk_true _ _ (removeProgression_rg k))
    | addItem a ps => exact mapOk_true _ _ (addItem_rg sub a ps)
    | removeItem r =>
      refine mapOk_true _ _ (removeItem_rg fuel r (fun u hu e => ?_))
      subst hu e
      exact hno t hc
  obtain ⟨u, p, hp, hl, hc⟩ := hx
  have hm := hinv.inv.keys x rfl (hinv.inv.refs u p (get_progs hp) x hl rfl)
  simp only [Pile.contains, Dict.has_eq_false_iff] at hc
  exact hc hm

/-- **C186** where no item is removed. -/
theorem C186_integrity_without_remove_item_partial (sub : γ → γ → Bool) (xs : List (Pile.Arg ι γ δ)) (t : Option (List γ)) (s : Bool)
    (ps : List (Flow.Prog ι)) (f₀ : Flow ι γ δ) (h₀ : Flow.Built sub xs t s ps f₀) (cs : Nat → List (Flow.Op ι γ δ))
    (hcs : ∀ t r, Flow.Op.removeItem r ∉ cs t) (fuel : Nat) (sched : List Nat) (u : ι) (p : Flow.Prog ι)
    (hp : Pile.get (run (threads sub fuel f₀ cs) sched).shared.progs (some u) false = .ok (some p)) :
    ∀ x ∈ p.data.order, Pile.contains (run (threads sub fuel f₀ cs) sched).shared.items (some x) = true := by
  intro x hx
  cases hc : Pile.contains (run (threads sub fuel f₀ cs) sched).shared.items (some x) with
  | true => rfl
  | false =>
    obtain ⟨t, ht⟩ := C186_kept_item_partial sub xs t s ps f₀ h₀ cs fuel sched x ⟨u, p, hp, hx, hc⟩
    exact absurd ht (hcs t _)

/-- **C186** for an item that is removed: if the progressions list it at most once at the start, a dangling reference to it arises only if some call puts a
new reference to it into the flow or takes a progression out of the flow. -/
theorem C186_removed_item_partial (sub : γ → γ → Bool) (xs : List (Pile.Arg ι γ δ)) (t : Option (List γ)) (s : Bool)
    (ps : List (Flow.Prog ι)) (f₀ : Flow ι γ δ) (h₀ : Flow.Built sub xs t s ps f₀) (cs : Nat → List (Flow.Op ι γ δ)) (fuel : Nat) (sched : List Nat) (x : ι)
    (honce : ∀ p ∈ ps, p.data.order.count x ≤ 1) (hx : Dangling x (run (threads sub fuel f₀ cs) sched).shared) : ∃ t, ∃ c ∈ cs t, AddsRef x c ∨ TakesProgression c := by
  apply Classical.byContradiction
  intro hno
  have hno : ∀ t, ∀ c ∈ cs t, ¬ AddsRef x c ∧ ¬ TakesProgression c := fun t c hc => ⟨fun h => hno ⟨t, c, hc, Or.inl h⟩, fun h => hno ⟨t, c, hc, Or.inr h⟩⟩
  obtain ⟨h1, h2, h3⟩ := h₀.ok
  have hmem : ∀ u p, f₀.progs.items.get? u = some p → u ∈ f₀.progs.order ∧ p ∈ ps := by
    intro u p hp
    have hu := (h1.progs.mem_iff u).2 (Dict.mem_keys_of_get? hp)
    refine ⟨hu, ?_⟩
    rw [← h2]
    exact List.mem_filterMap.2 ⟨u, hu, hp⟩
  have hI : Dropping.Sound x f₀ := by
    refine ⟨h1.items.wf, fun u p hp => honce p (hmem u p hp).2, ?_⟩
    rintro u ⟨p, hp, hx⟩
    exact ⟨h3 u p hp x hx, (hmem u p hp).1⟩
  have hinv : RGInv (α := Except Exc (Flow.Out ι γ δ)) (Dropping.Sound x) (Dropping.Shrinks x) (fun _ _ _ => True) (fun _ => True) (run (threads sub fuel f₀ cs) sched) := by
    refine RGInv.run stable_true (fun _ _ => stable_true) sched (RGInv.init hI trivial ?_)
    intro t q hq
    simp only [List.mem_map] at hq
    obtain ⟨c, hc, rfl⟩ := hq
    obtain ⟨hA, hT⟩ := hno t c hc
    cases c with
    | addProgression p => exact RG.withLock (fun _ => stable_true) (mapOk_true _ _ (Dropping.addProgression_rg p hA))
    | removeProgression k => exact absurd trivial hT
    | addItem a ps =>
      refine mapOk_true _ _ (Dropping.addItem_rg sub a ps (fun y hy e b hb => ?_))
      subst hy
      apply Classical.byContradiction
      intro hne
      exact hA ⟨e, b, hb, hne⟩
    | removeItem r => exact mapOk_true _ _ (Dropping.removeItem_rg fuel r)
  obtain ⟨u, p, hp, hl, hc⟩ := hx
  have hm := (hinv.inv.refs u ⟨p, get_progs hp, hl⟩).1
  simp only [Pile.contains, Dict.has_eq_false_iff] at hc
  exact hc hm

/-- Two items and two progressions, the second of which lists item 2. -/
def flow3 : Flow Nat Unit Unit := (Flow.addProgression (Flow.flow1 (Flow.p10 (some "a") [1])) (Flow.p11 (some "b") [2])).1

/-- One thread adds a progression over item 2, another removes item 2. -/
def race : Nat → List (Flow.Op Nat Unit Unit)
  | 0 => [.addProgression (Flow.p11 (some "b") [2])]
  | 1 => [.removeItem (some 2)]
  | _ => []

/-- **C186 fails** with `remove_item`: it takes no lock of the flow, so it can run between the check and the insertion of `add_progression`; both calls
succeed and a progression of the flow lists an item that is gone. -/
theorem C186_remove_item_violation :
    let m := run (threads (fun _ _ => true) 9 (Flow.flow1 (Flow.p10 (some "a") [1])) race) ([0, 0, 0, 0] ++ List.replicate 20 1 ++ List.replicate 20 0)
    ((m.threads 0).out.map (·.toOption.isSome)) = [true] ∧ ((m.threads 1).out.map (·.toOption.isSome)) = [true] ∧ m.locks 0 = none ∧
      Pile.iter m.shared.progs = .ok [Flow.p10 (some "a") [1], Flow.p11 (some "b") [2]] ∧ Pile.contains m.shared.items (some 2) = false := by
  decide +kernel

/-- **C186 fails** with `remove_item` and `remove_progression`: the loop of `remove_item` walks over the live list of progressions, so when another thread takes
out a progression already visited, the next one is skipped and keeps listing the removed item. -/
theorem C186_skipped_violation :
    let m := run (threads (fun _ _ => true) 9 flow3 (fun t => if t = 0 then [.removeItem (some 2)] else if t = 1 then [.removeProgression (.ref (some 10))] else []))
      ([0, 0, 0, 0] ++ List.replicate 30 1 ++ List.replicate 30 0)
    ((m.threads 0).out.map (·.toOption.isSome)) = [true] ∧ ((m.threads 1).out.map (·.toOption.isSome)) = [true] ∧ m.locks 0 = none ∧
      Pile.iter m.shared.progs = .ok [Flow.p11 (some "b") [2]] ∧ Pile.contains m.shared.items (some 2) = false := by
  decide +kernel

/-- **C186 fails** with `remove_item` and `add_item`: the item is removed between its insertion and its entry in the progression. -/
theorem C186_add_item_violation :
    let m := run (threads (fun _ _ => true) 9 (Flow.flow1 (Flow.p10 (some "a") [1]))
        (fun t => if t = 0 then [.addItem (some ⟨3, (), ()⟩) [.member 10]] else if t = 1 then [.removeItem (some 3)] else []))
      ([0, 0, 0, 0, 0, 0] ++ List.replicate 30 1 ++ List.replicate 30 0)
    ((m.threads 0).out.map (·.toOption.isSome)) = [true] ∧ ((m.threads 1).out.map (·.toOption.isSome)) = [true] ∧
      Pile.iter m.shared.progs = .ok [Flow.p10 (some "a") [1, 3]] ∧ Pile.contains m.shared.items (some 3) = false := by
  decide +kernel

/-- Non-vacuity of C186 for a removed item: item 2 is removed while another thread adds a progression and an item; no reference to it is left. -/
example :
    let m := run (threads (fun _ _ => true) 9 flow3
        (fun t => if t = 0 then [.removeItem (some 2)] else if t = 1 then [.addProgression ⟨12, (), ⟨none, [1]⟩⟩, .addItem (some ⟨3, (), ()⟩) [.member 11]] else []))
      ([0, 0, 0, 0, 0] ++ List.replicate 50 1 ++ List.replicate 50 0)
    ((m.threads 0).out.map (·.toOption.isSome)) = [true] ∧
      Pile.iter m.shared.progs = .ok [Flow.p10 (some "a") [1], Flow.p11 (some "b") [3], ⟨12, (), ⟨none, [1]⟩⟩] ∧ Pile.contains m.shared.items (some 2) = false := by
  decide +kernel

/-- Non-vacuity of C186: `add_item` with a progression argument, interrupted by `add_progression`. -/
example :
    let m := run (threads (fun _ _ => true) 9 (Flow.flow1 (Flow.p10 (some "a") [1]))
        (fun t => if t = 0 then [.addItem (some ⟨3, (), ()⟩) [.key (.str ⟨"a", none⟩)]] else if t = 1 then [.addProgression (Flow.p11 none [3])] else []))
      ([0, 0, 0, 0, 0, 0] ++ List.replicate 20 1 ++ List.replicate 20 0)
    Pile.iter m.shared.progs = .ok [Flow.p10 (some "a") [1, 3], Flow.p11 none [3]] ∧ m.shared.items.order = [1, 2, 3] := by
  decide +kernel

/-! ## C189 — the methods for progressions -/

theorem itemsL_lawful : (itemsL : Part (Flow ι γ δ) _).Lawful := ⟨fun _ _ => rfl, fun _ _ _ => rfl, fun _ => rfl⟩
theorem progsL_lawful : (progsL : Part (Flow ι γ δ) _).Lawful := ⟨fun _ _ => rfl, fun _ _ _ => rfl, fun _ => rfl⟩

theorem progs_act {β : Type} (h : Pile ι Unit (ProgData ι) → Pile ι Unit (ProgData ι) × β) (f : Flow ι γ δ) :
    exec (progsL.act h) f = ({ f with progs := (h f.progs).1 }, (h f.progs).2) := rfl

theorem addProgression_exec (p : Flow.Prog ι) (f : Flow ι γ δ) : exec (addProgression p) f = Flow.addProgression f p := by
  simp only [addProgression, exec_andThen, exec_act, nameCheck, Flow.addProgression]
  by_cases h1 : Flow.nameTaken f.names p = true
  · rw [if_pos h1, if_pos h1]; rfl
  · rw [if_neg h1, if_neg h1]
    simp only [contE_ok, exec_andThen, exec_act, missingCheck]
    by_cases h2 : Flow.missing f.items p.data.order = true
    · rw [if_pos h2, if_pos h2]; rfl
    · rw [if_neg h2, if_neg h2]
      simp only [contE_ok, exec_andThen, exec_withLock, addBody_exec progsL_lawful, progs_lift]
      rcases Pile.add Flow.anySub f.progs (some p) with ⟨pp, e | ⟨⟩⟩
      · rfl
      · rfl

theorem drop_exec (u : ι) (f : Flow ι γ δ) : exec (removeBody progsL (some u)) f = Flow.dropProgression f u := by
  rw [removeBody_exec progsL_lawful, progs_lift, Flow.dropProgression]
  rcases Pile.remove f.progs (some u) with ⟨pp, e | x⟩ <;> rfl

theorem removeById_exec (r : Ref ι) (f : Flow ι γ δ) : exec (removeById r) f = Flow.removeById f r := by
  cases r with
  | none => rfl
  | some u =>
    simp only [removeById, Flow.removeById, exec_andThen, exec_withLock, progs_act, PileSync.read, needProg]
    cases f.progs.items.get? u with
    | none => rfl
    | some p => simp only [contE_ok, exec_andThen, exec_act, dropName, exec_withLock, drop_exec]

theorem removeProgression_exec (k : Flow.FKey ι) (f : Flow ι γ δ) : exec (removeProgression k) f = Flow.removeProgression f k := by
  cases k with
  | ref r => exact removeById_exec r f
  | str s =>
    simp only [removeProgression, Flow.removeProgression, exec_bind, exec_act, takeName]
    cases f.names.get? s.str with
    | none => exact removeById_exec _ f
    | some u =>
      simp only [removeNamed, exec_andThen, exec_withLock, progs_act, PileSync.read, needProg]
      cases f.progs.items.get? u with
      | none => rfl
      | some p => simp only [contE_ok, exec_withLock, drop_exec]

theorem appendAll_exec (x : ι) (ps : List (Flow.ProgArg ι)) : ∀ f : Flow ι γ δ, exec (appendAll x ps) f = Flow.appendAll f x ps := by
  induction ps with
  | nil => intro f; rfl
  | cons a ps ih =>
    intro f
    cases a with
    | foreign => exact ih f
    | member u => simp only [appendAll, Flow.appendAll, exec_andThen, exec_act, appendTo, contE_ok, ih]
    | key k =>
      simp only [appendAll, Flow.appendAll, exec_andThen, exec_withLock, exec_act, getProg]
      cases Flow.getProgression f k with
      | error e => rfl
      | ok p => simp only [contE_ok, exec_andThen, exec_act, appendTo, ih]

theorem set_self {d : Dict ι (Flow.Prog ι)} {u : ι} {p : Flow.Prog ι} (h : d.get? u = some p) : d.set u p = d := by
  induction d with
  | nil => cases h
  | cons e d ih =>
    obtain ⟨k, v⟩ := e
    rw [Dict.get?_cons] at h
    by_cases hk : k = u
    · subst hk
      simp at h
      subst h
      simp [Dict.set]
    · simp [hk] at h
      simp [Dict.set, hk, ih h]

theorem modify_drop {pp : Pile ι Unit (ProgData ι)} {u x : ι} {p : Flow.Prog ι} (h : pp.items.get? u = some p) :
    (x ∈ p.data.order → Flow.modify pp u (Flow.dropFrom x) = Flow.modify pp u (·.erase x)) ∧ (x ∉ p.data.order → Flow.modify pp u (Flow.dropFrom x) = pp) := by
  constructor
  · intro hx
    simp only [Flow.modify, h, Flow.dropFrom, if_pos hx]
  · intro hx
    simp only [Flow.modify, h, Flow.dropFrom, if_neg hx]
    rw [set_self h]

theorem modify_order (pp : Pile ι Unit (ProgData ι)) (u : ι) (g : List ι → List ι) : (Flow.modify pp u g).order = pp.order := by
  simp only [Flow.modify]
  cases pp.items.get? u <;> rfl

theorem dropLoop_exec (x : ι) : ∀ (fuel k : Nat) (f : Flow ι γ δ), f.progs.order.length < k + fuel → k ≤ f.progs.order.length →
    exec (dropLoop x fuel k) f = ({ f with progs := (Flow.dropEverywhere f.progs x (f.progs.order.drop k)).1 }, (Flow.dropEverywhere f.progs x (f.progs.order.drop k)).2) := by
  intro fuel
  induction fuel with
  | zero => intro k f h h'; omega
  | succ fuel ih =>
    intro k f h h'
    simp only [dropLoop, exec_bind, exec_act, progAt]
    cases hk : f.progs.order[k]? with
    | none =>
      rw [List.drop_eq_nil_of_le (List.getElem?_eq_none_iff.1 hk)]
      rfl
    | some u =>
      obtain ⟨hlt, hu⟩ := List.getElem?_eq_some_iff.1 hk
      rw [List.drop_eq_getElem_cons hlt, hu]
      simp only [dropTurn, exec_andThen, exec_act, yieldProg, Flow.dropEverywhere]
      cases hg : f.progs.items.get? u with
      | none => rfl
      | some p =>
        obtain ⟨m1, m2⟩ := modify_drop (x := x) hg
        simp only [contE_ok, exec_andThen, exec_act, listedIn, hg]
        by_cases hm : x ∈ p.data.order
        · simp only [decide_eq_true hm, contE_ok, exec_andThen, dropIf, exec_act, removeFrom, hg, if_pos hm]
          rw [m1 hm, ih _ _ (by simp only [modify_order]; omega) (by simp only [modify_order]; omega)]
          simp only [modify_order]
        · simp only [decide_eq_false hm, contE_ok, exec_andThen, dropIf, exec]
          rw [m2 hm, ih _ _ (by omega) (by omega)]

/-- Every call, run without interruption, does what the sequential model of `Flow` says. -/
theorem call_exec (sub : γ → γ → Bool) (fuel : Nat) (op : Flow.Op ι γ δ) (f : Flow ι γ δ) (hf : f.progs.order.length < fuel) : exec (call sub fuel op) f = Flow.step sub f op := by
  cases op with
  | addProgression p => rw [call, exec_withLock, exec_mapOk, addProgression_exec]; rfl
  | removeProgression k => rw [call, exec_withLock, exec_mapOk, removeProgression_exec]; rfl
  | addItem a ps =>
    rw [call, exec_mapOk]
    have : exec (addItem sub a ps) f = Flow.addItem sub f a ps := by
      simp only [addItem, exec_andThen, exec_withLock, addBody_exec itemsL_lawful, items_lift, Flow.addItem]
      rcases Pile.add sub f.items a with ⟨ip, e | ⟨⟩⟩
      · rfl
      · cases a with
        | none => rfl
        | some x => simp only [contE_ok, addItemRest, appendAll_exec]
    rw [this]; rfl
  | removeItem r =>
    rw [call, exec_mapOk]
    have : exec (removeItem fuel r) f = Flow.removeItem f r := by
      cases r with
      | none => rfl
      | some u =>
        simp only [removeItem, Flow.removeItem, exec_andThen, dropLoop_exec u fuel 0 f (by omega) (by omega), List.drop_zero]
        rcases Flow.dropEverywhere f.progs u f.progs.order with ⟨pp, e | ⟨⟩⟩
        · rfl
        · simp only [contE_ok, exec_withLock, removeBody_exec itemsL_lawful, items_lift]
    rw [this]; rfl

/-- What a call does, from the sequential model. -/
def seq (c : Call ι) (f : Flow ι γ δ) : Res (Flow ι γ δ) (Flow.Out ι γ δ) :=
  match c with
  | .add p => Flow.step (fun _ _ => true) f (.addProgression p)
  | .remove k => Flow.step (fun _ _ => true) f (.removeProgression k)
  | .get k => (f, (Flow.getProgression f k).map .prog)

theorem body_exec (c : Call ι) (f : Flow ι γ δ) : exec (body c) f = seq c f := by
  cases c with
  | add p => rw [body, exec_mapOk, addProgression_exec]; rfl
  | remove k => rw [body, exec_mapOk, removeProgression_exec]; rfl
  | get k => rfl

theorem removeById_nested (r : Ref ι) : Nested 3 [0] [] (removeById r : Prog (Flow ι γ δ) _) := by
  cases r with
  | none => exact Nested.ret _
  | some u =>
    refine Nested.andThen (Nested.withLock (by simp [MayTake]) (Nested.partAct _ _)) (fun _ => Nested.andThen (Nested.act _) (fun _ => ?_))
    exact Nested.withLock (by simp [MayTake]) (removeBody_nested _ _)

theorem body_nested (c : Call ι) : Nested 3 [0] [] (body c : Prog (Flow ι γ δ) _) := by
  cases c with
  | add p =>
    refine mapOk_nested _ (Nested.andThen (Nested.act _) (fun _ => Nested.andThen (Nested.act _) (fun _ => Nested.andThen ?_ (fun _ => Nested.act _))))
    exact Nested.withLock (by simp [MayTake]) (addBody_nested _ _ _)
  | remove k =>
    refine mapOk_nested _ ?_
    cases k with
    | ref r => exact removeById_nested r
    | str s =>
      refine Nested.bind (fun r => ?_) _ _ (Nested.act _)
      cases r with
      | none => exact removeById_nested _
      | some u =>
        refine Nested.andThen (Nested.withLock (by simp [MayTake]) (Nested.partAct _ _)) (fun _ => ?_)
        exact Nested.withLock (by simp [MayTake]) (removeBody_nested _ _)
  | get k => exact mapOk_nested _ (Nested.act _)

/-- The machine with progression methods only. -/
def progThreads (f : Flow ι γ δ) (cs : Nat → List (Call ι)) : State (Flow ι γ δ) (Except Exc (Flow.Out ι γ δ)) :=
  init f (fun t => (cs t).map (fun c => withLock 0 (body c)))

/-- **C189**.  Any number of threads call `add_progression`, `remove_progression` and `get_progression` on one flow: under every schedule there is one
order of the calls such that every thread has received what the calls in that order return or raise, and whenever no call is in progress the
flow is the one this order leaves and its progressions list only its items. -/
theorem C189_progression_methods_linearizable (sub : γ → γ → Bool) (xs : List (Pile.Arg ι γ δ)) (t : Option (List γ)) (s : Bool)
    (ps : List (Flow.Prog ι)) (f₀ : Flow ι γ δ) (h₀ : Flow.Built sub xs t s ps f₀) (cs : Nat → List (Call ι)) (sched : Nat → Nat) :
    ∃ log : Nat → List (Nat × Call ι), ∀ n,
      Explains seq cs f₀ (fun f f' => f = f' ∧ Flow.Referential f) 0 (stateAt (progThreads f₀ cs) sched n) (log n) ∧ log n <+: log (n + 1) := by
  obtain ⟨log, h⟩ := C182_linearizable body seq (fun c f => body_exec c f) 0 3 cs (fun _ c _ => body_nested c) f₀ sched
  refine ⟨log, fun n => ⟨(h n).1.abstract (Rel := fun f f' => f = f' ∧ Flow.PInv f ∧ Flow.Integrity f) ?_ ?_ ?_, (h n).2⟩⟩
  · rintro c f f' ⟨h1, h2, h3⟩
    rw [← h1]
    refine ⟨⟨rfl, ?_⟩, rfl⟩
    cases c with
    | add p => exact ⟨h2.step _ _, h3.step h2 _ _ (fun _ h => by simp at h)⟩
    | remove k => exact ⟨h2.step _ _, h3.step h2 _ _ (fun _ h => by simp at h)⟩
    | get k => exact ⟨h2, h3⟩
  · obtain ⟨h1, h2, h3⟩ := h₀.ok
    exact ⟨rfl, h1, h3⟩
  · rintro f f' ⟨h1, h2, h3⟩
    exact ⟨h1, (Flow.referential_iff h2).2 h3⟩

/-- **C189** (progress). -/
theorem C189_progression_calls_complete (f : Flow ι γ δ) (cs : Nat → List (Call ι)) (sched : List Nat) (N : Nat) :
    ∃ more, ∀ t < N, Done (run (progThreads f cs) (sched ++ more)) t :=
  C183_all_calls_can_complete body 0 3 cs (fun _ c _ => body_nested c) f sched N

/-- Two threads add a progression with the same name: exactly one of them succeeds. -/
example :
    let m := run (progThreads (Flow.flow1 (Flow.p10 (some "a") [1]))
        (fun t => if t = 0 then [.add (Flow.p11 (some "b") [2])] else if t = 1 then [.add ⟨12, (), ⟨some "b", [1]⟩⟩] else []))
      ([0, 0, 0] ++ List.replicate 20 1 ++ List.replicate 20 0 ++ List.replicate 20 1)
    (m.threads 0).out.map (·.toOption.isSome) = [true] ∧ (m.threads 1).out.map (·.toOption.isSome) = [false] ∧ m.locks 0 = none := by
  decide +kernel

end Verif.FlowSync

namespace Verif.PileSync

open Verif.Sync

variable {ι γ δ : Type} [DecidableEq ι] [DecidableEq γ]

theorem iterFrom_exec (p : Pile ι γ δ) : ∀ (fuel k : Nat) (acc : List (Item ι γ δ)), p.order.length < k + fuel →
    exec (iterFrom fuel k acc) p = (p, (Pile.lookupAll p.items (p.order.drop k)).map (acc ++ ·)) := by
  intro fuel
  induction fuel with
  | zero =>
    intro k acc h
    rw [List.drop_eq_nil_of_le (by omega)]
    simp [iterFrom, exec, Pile.lookupAll, Except.map]
  | succ fuel ih =>
    intro k acc h
    simp only [iterFrom, exec_bind, exec_act, idAtPos]
    cases hk : p.order[k]? with
    | none =>
      rw [List.drop_eq_nil_of_le (List.getElem?_eq_none_iff.1 hk)]
      simp [iterBody, exec, Pile.lookupAll, Except.map]
    | some u =>
      obtain ⟨hlt, hu⟩ := List.getElem?_eq_some_iff.1 hk
      rw [List.drop_eq_getElem_cons hlt, hu]
      simp only [iterBody, exec_andThen, exec_act, yieldItem, itemOf, Pile.lookupAll]
      cases p.items.get? u with
      | none => rfl
      | some x =>
        simp only [contE_ok]
        rw [ih _ _ (by omega)]
        cases Pile.lookupAll p.items (p.order.drop (k + 1)) <;> simp [Except.map]

/-- An iteration that is not interrupted does what the sequential model of `Pile` says. -/
theorem iterFrom_exec_all (p : Pile ι γ δ) (fuel : Nat) (h : p.order.length < fuel) : exec (iterFrom fuel 0 []) p = (p, Pile.iter p) := by
  rw [iterFrom_exec p fuel 0 [] (by omega)]
  show (p, (Pile.lookupAll p.items p.order).map ([] ++ ·)) = (p, Pile.lookupAll p.items p.order)
  cases Pile.lookupAll p.items p.order <;> rfl

/-- Thread 0 iterates over the pile, taking at most `fuel` items; the others make the calls `cs`. -/
def iterating (fuel : Nat) (cs : Nat → List (Call ι γ δ)) (t : Nat) : List (Call2 ι γ δ) :=
  if t = 0 then [.list fuel] else (cs t).map .sync

/-- The machine with iteration. -/
def threads2 (sub : γ → γ → Bool) (p : Pile ι γ δ) (cs : Nat → List (Call2 ι γ δ)) : State (Pile ι γ δ) (Except Exc (Pile.Out ι γ δ)) :=
  init p (fun t => (cs t).map (call2 sub))

/-- **C188** where nothing is removed: thread 0 iterates over a pile (up to `fuel` items) while other threads add, replace and look up items; under
every schedule the iteration does not raise, it yields the first items of the pile in its order, each once, and among them all (up to `fuel`)
that were in the pile when it started. -/
theorem C188_iteration_while_adding_partial (sub : γ → γ → Bool) (xs : List (Item ι γ δ)) (t : Option (List γ)) (s : Bool) (p₀ : Pile ι γ δ)
    (h₀ : Pile.mk' sub (xs.map some) t s none = .ok p₀) (fuel : Nat) (cs : Nat → List (Call ι γ δ))
    (hcs : ∀ t, ∀ c ∈ cs t, c.keeps = true) (sched : List Nat) :
    let m := run (threads2 sub p₀ (iterating fuel cs)) sched
    ∀ r ∈ (m.threads 0).out, ∃ l, r = .ok (.list l) ∧ l.map Item.id <+: Pile.keys m.shared ∧ (xs.map Item.id).take fuel <+: l.map Item.id ∧
      l.length ≤ fuel := by
  intro m
  obtain ⟨hi, ha, -⟩ := Pile.mk'_inv sub _ t s p₀ h₀
  have hx : Pile.abs p₀ = xs := (List.map_inj_right (fun _ _ h => Option.some.inj h)).1 ha
  have ho : p₀.order = xs.map Item.id := by rw [← hx, Pile.abs_ids hi]
  have hI : Backed p₀ := ⟨fun u hu => (hi.mem_iff u).1 hu, hi.ids⟩
  let Q : Nat → Except Exc (Pile.Out ι γ δ) → Pile ι γ δ → Prop := fun t r p => t = 0 → ∃ l, r = .ok (.list l) ∧ Seen p₀.order fuel l p
  have hQ : ∀ t a, Stable (σ := Pile ι γ δ) Backed Grows (Q t a) := by
    intro t a s s' hi' ha hr h0
    obtain ⟨l, h1, h2⟩ := ha h0
    exact ⟨l, h1, stable_seen _ _ _ s s' hi' h2 hr⟩
  have hinv : RGInv Backed Grows Q (fun p => p₀.order <+: p.order) m := by
    refine RGInv.run (stable_prefix p₀.order) hQ sched (RGInv.init hI (List.prefix_refl _) ?_)
    intro t p hp
    by_cases h0 : t = 0
    · simp only [iterating, if_pos h0, List.map_cons, List.map_nil, List.mem_singleton] at hp
      subst hp
      refine RG.mapOk (E := False) (stable_seen p₀.order fuel) ?_ (fun l p _ hl _ => ⟨l, rfl, hl⟩) (fun h => h.elim)
      exact RG.weaken _ _ _ (fun p _ h => ⟨by simp, h⟩) (iterFrom_rg p₀.order fuel fuel [] (by simp))
    · simp only [iterating, if_neg h0, List.mem_map] at hp
      obtain ⟨c, ⟨c', hc, rfl⟩, rfl⟩ := hp
      exact RG.post (fun _ _ _ _ h => absurd h h0) _ _ (keeps_rg sub c' (hcs t c' hc))
  intro r hr
  obtain ⟨l, h1, h2, h3, h4⟩ := hinv.out 0 r hr rfl
  exact ⟨l, h1, h2, ho ▸ h3, h4⟩

/-- The item is one of `xs` or some call adds it or replaces an item by it. -/
def Offered (xs : List (Item ι γ δ)) (cs : Nat → List (Call ι γ δ)) (x : Item ι γ δ) : Prop :=
  x ∈ xs ∨ ∃ t, .add (some x) ∈ cs t ∨ .update (some x) ∈ cs t

/-- **C188** with removals: thread 0 iterates over a pile (up to `fuel` items) while other threads make any calls, among which none takes out one of
the first items `pre`.  Under every schedule the iteration yields these items first, in their order, and only items that somebody put into the pile,
or it raises `KeyError` and some call takes items out.  (An item that stays can be missed only if an item before it is taken out.) -/
theorem C188_kept_front_partial (sub : γ → γ → Bool) (pre post : List (Item ι γ δ)) (t : Option (List γ)) (s : Bool) (p₀ : Pile ι γ δ)
    (h₀ : Pile.mk' sub ((pre ++ post).map some) t s none = .ok p₀) (fuel : Nat) (cs : Nat → List (Call ι γ δ))
    (hrem : ∀ t, ∀ x ∈ pre, .remove (some x.id) ∉ cs t ∧ (∀ d, .pop (some x.id) d ∉ cs t) ∧ .clear ∉ cs t) (sched : List Nat) :
    let m := run (threads2 sub p₀ (iterating fuel cs)) sched
    ∀ r ∈ (m.threads 0).out,
      (∃ l, r = .ok (.list l) ∧ (pre.map Item.id).take fuel <+: l.map Item.id ∧ l.length ≤ fuel ∧ ∀ x ∈ l, Offered (pre ++ post) cs x) ∨
      (r = .error .keyError ∧ ∃ t, ∃ c ∈ cs t, c.keeps = false) := by
  intro m
  obtain ⟨hi, ha, -⟩ := Pile.mk'_inv sub _ t s p₀ h₀
  have hx : Pile.abs p₀ = pre ++ post := (List.map_inj_right (fun _ _ h => Option.some.inj h)).1 ha
  have ho : p₀.order = (pre ++ post).map Item.id := by rw [← hx, Pile.abs_ids hi]
  let P := pre.map Item.id
  let S := Offered (pre ++ post) cs
  have hI : Staying.Stays P S p₀ := by
    refine ⟨by rw [ho, List.map_append]; exact List.prefix_append _ _, fun u hu => ?_, hi.wf, hi.ids, fun u x hg => Or.inl ?_⟩
    · refine (hi.mem_iff u).1 ?_
      rw [ho, List.map_append]
      exact List.mem_append_left _ hu
    · rw [← hx]
      exact (Pile.mem_abs hi x).2 (by rw [hi.ids u x hg]; exact hg)
  let Q : Nat → Except Exc (Pile.Out ι γ δ) → Pile ι γ δ → Prop := fun t r _ => t = 0 →
    (∃ l, r = .ok (.list l) ∧ Staying.Got P S fuel l) ∨ r = .error .keyError
  have hinv : RGInv (Staying.Stays P S) Staying.AnyStep Q (fun _ => True) m := by
    refine RGInv.run (Staying.stable_pure True) (fun t a => Staying.stable_pure _) sched (RGInv.init hI trivial ?_)
    intro t p hp
    by_cases h0 : t = 0
    · simp only [iterating, if_pos h0, List.map_cons, List.map_nil, List.mem_singleton] at hp
      subst hp
      refine RG.mapOkE (fun l => Staying.stable_pure (Staying.Got P S fuel l)) (Staying.iterFrom_rg fuel fuel [] (by simp) (by simp) (by simp))
        (fun l p _ hl _ => Or.inl ⟨l, rfl, hl⟩) (fun e p he _ => Or.inr (by rw [he]))
    · simp only [iterating, if_neg h0, List.mem_map] at hp
      obtain ⟨c, ⟨c', hc, rfl⟩, rfl⟩ := hp
      refine RG.post (fun _ _ _ _ h => absurd h h0) _ _ (Staying.spares_rg sub c' ?_ (fun x hx => Or.inr ⟨t, Or.inl (hx ▸ hc)⟩)
        (fun x hx => Or.inr ⟨t, Or.inr (hx ▸ hc)⟩))
      cases c' with
      | add a => trivial
      | get r d => trivial
      | update a => trivial
      | contains r => trivial
      | len => trivial
      | index i => trivial
      | remove r =>
        intro u hu hm
        obtain ⟨x, hx, rfl⟩ := List.mem_map.1 hm
        exact (hrem t x hx).1 (hu ▸ hc)
      | pop r d =>
        intro u hu hm
        obtain ⟨x, hx, rfl⟩ := List.mem_map.1 hm
        exact (hrem t x hx).2.1 d (hu ▸ hc)
      | clear =>
        cases hp : pre with
        | nil => simp [Staying.Spares, P, hp]
        | cons x xs => exact absurd hc (hrem t x (by simp [hp])).2.2
  intro r hr
  rcases hinv.out 0 r hr rfl with ⟨l, h1, h2⟩ | h
  · exact Or.inl ⟨l, h1, h2⟩
  · refine Or.inr ⟨h, Classical.byContradiction fun hno => ?_⟩
    have hk : ∀ t, ∀ c ∈ cs t, c.keeps = true := by
      intro t c hc
      cases hb : c.keeps with
      | true => rfl
      | false => exact absurd ⟨t, c, hc, hb⟩ hno
    obtain ⟨l, h1, -⟩ := C188_iteration_while_adding_partial sub (pre ++ post) _ s p₀ h₀ fuel cs hk sched r hr
    rw [h] at h1; simp at h1

/-- The exception of a result. -/
def errorOf (r : Except Exc (Pile.Out Nat Unit Unit)) : Option Exc :=
  match r with
  | .error e => some e
  | _ => none

/-- **C188 fails** with removals: another thread has taken the item out but not yet its id, and the iteration raises `KeyError`. -/
theorem C188_key_error_violation :
    let m := run (threads2 (fun _ _ => true) Flow.pile12 (iterating 5 (fun t => if t = 1 then [.remove (some 1)] else [])))
      ([0] ++ [1, 1, 1] ++ [0, 0, 0] ++ [1, 1, 1, 1])
    (m.threads 0).out.map errorOf = [some .keyError] ∧ (m.threads 1).out.map (·.toOption.isSome) = [true] ∧ m.shared.order = [2] := by
  decide +kernel

/-- The ids of a result. -/
def idsOf (r : Except Exc (Pile.Out Nat Unit Unit)) : Option (List Nat) :=
  match r with
  | .ok (.list l) => some (l.map Item.id)
  | _ => none

/-- **C188 fails** with removals: when an item already seen is removed, the iteration skips the next one, which stays in the pile all the time. -/
theorem C188_skip_violation :
    let m := run (threads2 (fun _ _ => true) Flow.pile12 (iterating 5 (fun t => if t = 1 then [.remove (some 1)] else [])))
      ([0, 0, 0] ++ List.replicate 10 1 ++ List.replicate 10 0)
    (m.threads 0).out.map idsOf = [some [1]] ∧ m.shared.order = [2] := by
  decide +kernel

/-- Non-vacuity of C188 with removals: the first item stays, the second is taken out while the loop is at the first. -/
example :
    let m := run (threads2 (fun _ _ => true) Flow.pile12 (iterating 5 (fun t => if t = 1 then [.remove (some 2)] else [])))
      ([0, 0, 0] ++ List.replicate 10 1 ++ List.replicate 10 0)
    (m.threads 0).out.map idsOf = [some [1]] ∧ m.shared.order = [1] := by
  decide +kernel

/-- Non-vacuity of C188: an item added during the iteration is yielded. -/
example :
    let m := run (threads2 (fun _ _ => true) Flow.pile12 (iterating 5 (fun t => if t = 1 then [.add (some ⟨3, (), ()⟩)] else [])))
      ([0, 0, 0] ++ List.replicate 10 1 ++ List.replicate 20 0)
    (m.threads 0).out.map idsOf = [some [1, 2, 3]] := by
  decide +kernel

end Verif.PileSync
