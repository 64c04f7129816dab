import Verif.Model.Graph

/-!
# Specification: walks in a directed multigraph

A directed multigraph is given by the list of its edges (items with a head and a tail).
-/

namespace Verif.Digraph

variable {ι ε : Type}

/-- `p` is a walk from `a` to `b` along edges of `es`; edges lead from their head to their tail. -/
def Walk (es : List (Item ι Unit (EdgeData ι ε))) : ι → List (Item ι Unit (EdgeData ι ε)) → ι → Prop
  | a, [], b => a = b
  | a, e :: p, b => e ∈ es ∧ e.data.head = a ∧ Walk es e.data.tail p b

/-- No closed walk except the empty one. -/
def Acyclic (es : List (Item ι Unit (EdgeData ι ε))) : Prop := ∀ n p, Walk es n p n → p = []

/-- The edge relation. -/
def Adj (es : List (Item ι Unit (EdgeData ι ε))) (a b : ι) : Prop := ∃ e ∈ es, e.data.head = a ∧ e.data.tail = b

/-- A graph as the user sees it: its nodes and edges in insertion order. -/
structure SG (ι ν ε : Type) where
  nodes : List (Item ι Unit ν) := []
  edges : List (Item ι Unit (EdgeData ι ε)) := []

variable {ν : Type} [DecidableEq ι]

/-- `n` is a node. -/
abbrev SG.IsNode (s : SG ι ν ε) (n : ι) : Prop := n ∈ s.nodes.map Item.id

/-- Intended effect of one call; `.error` means that the call raises and changes nothing. -/
def SG.step (s : SG ι ν ε) : Graph.Op ι ν ε → Except Exc (SG ι ν ε × Graph.Out ι ν ε)
  | .addNode none => .error .typeError
  | .addNode (some x) =>
    if s.IsNode x.id then .error .exists_ else .ok ({ s with nodes := s.nodes ++ [x] }, .unit)
  | .addEdge none => .error .attributeError
  | .addEdge (some e) =>
    if ¬ s.IsNode e.data.head ∨ ¬ s.IsNode e.data.tail then .error .notFound
    else if e.id ∈ s.edges.map Item.id then .error .exists_
    else .ok ({ s with edges := s.edges ++ [e] }, .unit)
  | .removeEdge none => .error .valueError
  | .removeEdge (some u) =>
    match s.edges.find? (fun e => decide (e.id = u)) with
    | none => .error .notFound
    | some e => .ok ({ s with edges := s.edges.filter (fun y => decide (y.id ≠ u)) }, .edge e)
  | .removeNode _ none => .error .valueError
  | .removeNode _ (some u) =>
    match s.nodes.find? (fun x => decide (x.id = u)) with
    | none => .error .notFound
    | some x => .ok ({ nodes := s.nodes.filter (fun y => decide (y.id ≠ u)),
                       edges := s.edges.filter (fun e => decide (e.data.head ≠ u ∧ e.data.tail ≠ u)) }, .node x)

/-- The state after a call. -/
def SG.next (s : SG ι ν ε) (op : Graph.Op ι ν ε) : SG ι ν ε :=
  match s.step op with
  | .ok (s', _) => s'
  | .error _ => s

/-- The state after a history of calls on an empty graph. -/
def SG.run (ops : List (Graph.Op ι ν ε)) : SG ι ν ε := ops.foldl SG.next {}

omit [DecidableEq ι] in
theorem walk_append {es : List (Item ι Unit (EdgeData ι ε))} {a b c : ι} {p q : List (Item ι Unit (EdgeData ι ε))}
    (h1 : Walk es a p b) (h2 : Walk es b q c) : Walk es a (p ++ q) c := by
  induction p generalizing a with
  | nil => cases h1; exact h2
  | cons e p ih => exact ⟨h1.1, h1.2.1, ih h1.2.2⟩

omit [DecidableEq ι] in
theorem walk_transGen {es : List (Item ι Unit (EdgeData ι ε))} {a b : ι} {p : List (Item ι Unit (EdgeData ι ε))}
    (h : Walk es a p b) (hp : p ≠ []) : Relation.TransGen (Adj es) a b := by
  induction p generalizing a with
  | nil => exact absurd rfl hp
  | cons e p ih =>
    obtain ⟨h1, h2, h3⟩ := h
    cases p with
    | nil => cases h3; exact .single ⟨e, h1, h2, rfl⟩
    | cons f p =>
      have : Relation.TransGen (Adj es) a e.data.tail := .single ⟨e, h1, h2, rfl⟩
      exact this.trans (ih h3 (by simp))

omit [DecidableEq ι] in
theorem transGen_walk {es : List (Item ι Unit (EdgeData ι ε))} {a b : ι} (h : Relation.TransGen (Adj es) a b) :
    ∃ p, p ≠ [] ∧ Walk es a p b := by
  induction h with
  | single h =>
    obtain ⟨e, h1, h2, h3⟩ := h
    exact ⟨[e], by simp, h1, h2, h3⟩
  | tail _ h ih =>
    obtain ⟨p, hp, hw⟩ := ih
    obtain ⟨e, h1, h2, h3⟩ := h
    exact ⟨p ++ [e], by simp, walk_append hw ⟨h1, h2, h3⟩⟩

omit [DecidableEq ι] in
theorem acyclic_iff (es : List (Item ι Unit (EdgeData ι ε))) :
    Acyclic es ↔ ∀ n, ¬ Relation.TransGen (Adj es) n n := by
  constructor
  · intro h n hn
    obtain ⟨p, hp, hw⟩ := transGen_walk hn
    exact hp (h n p hw)
  · intro h n p hw
    by_cases hp : p = []
    · exact hp
    · exact absurd (walk_transGen hw hp) (h n)

omit [DecidableEq ι] in
/-- In a finite set with an acyclic relation some element has no predecessor in the set. -/
theorem exists_source {R : ι → ι → Prop} (hR : ∀ n, ¬ Relation.TransGen R n n) :
    ∀ (k : Nat) (S : List ι), S.length ≤ k → S ≠ [] → ∃ x ∈ S, ∀ y ∈ S, ¬ R y x := by
  intro k
  induction k with
  | zero => intro S hS hne; cases S with
    | nil => exact absurd rfl hne
    | cons a S => simp at hS
  | succ k ih =>
    intro S hS hne
    cases S with
    | nil => exact absurd rfl hne
    | cons a S =>
      classical
      by_cases hp : (a :: S).filter (fun y => decide (Relation.TransGen R y a)) = []
      · refine ⟨a, by simp, ?_⟩
        intro y hy hya
        have : y ∈ (a :: S).filter (fun y => decide (Relation.TransGen R y a)) :=
          List.mem_filter.2 ⟨hy, by simpa using Relation.TransGen.single hya⟩
        rw [hp] at this; cases this
      · have hlen : ((a :: S).filter (fun y => decide (Relation.TransGen R y a))).length ≤ k := by
          rw [List.filter_cons_of_neg (by simpa using hR a)]
          have := List.length_filter_le (fun y => decide (Relation.TransGen R y a)) S
          simp only [List.length_cons] at hS
          omega
        obtain ⟨x, hx, hx2⟩ := ih _ hlen hp
        rw [List.mem_filter] at hx
        refine ⟨x, hx.1, ?_⟩
        intro y hy hyx
        refine hx2 y (List.mem_filter.2 ⟨hy, ?_⟩) hyx
        have hxa : Relation.TransGen R x a := by simpa using hx.2
        simpa using (Relation.TransGen.single hyx).trans hxa

end Verif.Digraph
