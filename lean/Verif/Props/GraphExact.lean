import Verif.Props.Graph

/-!
# C15, C19: membership and malformed arguments
-/

set_option linter.unusedSectionVars false
set_option linter.unusedSimpArgs false

namespace Verif.Graph

open Digraph

variable {ι ν ε : Type} [DecidableEq ι]

theorem contains_iff {δ : Type} {p : Pile ι Unit δ} (h : Pile.Inv p) (u : ι) :
    Pile.contains p (some u) = true ↔ u ∈ (Pile.abs p).map Item.id := by
  rw [Pile.abs_ids h, h.mem_iff]
  exact Dict.has_iff _ _

/-- **C15** (membership).  After any history `u in graph` is true exactly for the ids of the nodes and of the edges, and
`len(graph)` is the number of nodes. -/
theorem C15_contains (ops : List (Op ι ν ε)) (s : SG ι ν ε) (hs : Shows (run {} ops) s) (u : ι) :
    (containsId (run ({} : Graph ι ν ε) ops) u = true ↔ u ∈ s.nodes.map Item.id ∨ u ∈ s.edges.map Item.id) ∧
    len (run ({} : Graph ι ν ε) ops) = s.nodes.length := by
  obtain ⟨h, _⟩ := run_ok ops (ginv_empty (ν := ν) (ε := ε)) cfg_empty
  rw [shows_iff h] at hs
  subst hs
  refine ⟨?_, ?_⟩
  · simp only [containsId, Bool.or_eq_true, contains_iff h.nodes, contains_iff h.edges, view]
  · have := Pile.abs_ids h.nodes
    have h2 : (Pile.abs (run ({} : Graph ι ν ε) ops).nodes).length = (run ({} : Graph ι ν ε) ops).nodes.order.length := by
      rw [← this]; simp
    simp only [len, Pile.len, view, h2]
    have h3 := length_le_of_nodup_subset h.nodes.nodup (fun x hx => (h.nodes.mem_iff x).1 hx)
    have h4 := length_le_of_nodup_subset h.nodes.wf (fun x hx => (h.nodes.mem_iff x).2 hx)
    simp [Dict.keys] at h3 h4 ⊢
    omega

example : containsId (run {} demo) 2 = true ∧ containsId (run {} demo) 12 = true ∧ containsId (run {} demo) 13 = false := by
  decide

/-- **C15 / C19** (arguments).  A value that is not a node, edge, UUID or UUID string is refused with `ValueError` by every query, on
every graph; so is a direction other than `in`, `out`, `both`, whatever the node. -/
theorem C15_malformed (g : Graph ι ν ε) (o : SetOrder ι) (r : Ref ι) (d : Dir) (cond : ι → Bool) (fuel : Nat) :
    getSuccessors o g none = .error .valueError ∧ getPredecessors o g none = .error .valueError ∧
    getNodeEdges o g none d = .error .valueError ∧ getNodeEdges o g r .bad = .error .valueError ∧
    findPath o g cond none r fuel = some (.error .valueError) ∧ findPath o g cond r none fuel = some (.error .valueError) := by
  refine ⟨rfl, rfl, ?_, ?_, rfl, ?_⟩
  · cases d <;> rfl
  · rfl
  · cases r <;> rfl

end Verif.Graph
