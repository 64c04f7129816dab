import Verif.Lemmas.GraphKahn
import Verif.Lemmas.GraphBfs
import Verif.Props.Pile

/-!
# Properties C15–C20, C88: `Graph`
-/

set_option linter.unusedSectionVars false
set_option linter.unusedSimpArgs false

namespace Verif.Graph

open Digraph

variable {ι ν ε : Type} [DecidableEq ι]

/-! ## Configuration of the piles -/

/-- Both piles keep the constraint they were created with. -/
structure Cfg (g : Graph ι ν ε) : Prop where
  nt : g.nodes.itemType = some [()]
  ns : g.nodes.strict = false
  np : g.nodes.pname = none
  et : g.edges.itemType = some [()]
  es : g.edges.strict = false
  ep : g.edges.pname = none

theorem removeEdge_cfg {g : Graph ι ν ε} (h : GInv g) (hc : Cfg g) (r : Ref ι) : Cfg (removeEdge g r).1 := by
  cases hr : (removeEdge g r).2 with
  | error e => rw [removeEdge_error h hr]; exact hc
  | ok x =>
    cases r with
    | none => cases hr
    | some eid =>
      cases hx : g.edges.items.get? eid with
      | none => simp only [Graph.removeEdge, hx] at hr; cases hr
      | some x =>
        obtain ⟨g', h1, h2, h3, h4⟩ := removeEdge_ok h hx
        rw [h1]
        exact ⟨by rw [h3]; exact hc.nt, by rw [h3]; exact hc.ns, by rw [h3]; exact hc.np, by rw [h4]; exact hc.et,
          by rw [h4]; exact hc.es, by rw [h4]; exact hc.ep⟩

theorem removeEdges_cfg {g : Graph ι ν ε} (h : GInv g) (hc : Cfg g) (es : List ι) : Cfg (removeEdges g es).1 := by
  induction es generalizing g with
  | nil => exact hc
  | cons e es ih =>
    have hc' := removeEdge_cfg h hc (some e)
    have hi' := h.removeEdge (some e)
    simp only [removeEdges]
    cases hr : removeEdge g (some e) with
    | mk g' r =>
      rw [hr] at hc' hi'
      cases r with
      | ok _ => exact ih hi' hc'
      | error x => exact hc'

theorem removeNode_cfg {g : Graph ι ν ε} (h : GInv g) (hc : Cfg g) (o : SetOrder ι) (r : Ref ι) :
    Cfg (removeNode o g r).1 := by
  cases r with
  | none => exact hc
  | some n =>
    cases hx : g.nodes.items.get? n with
    | none => simp only [removeNode, hx]; exact hc
    | some x =>
      have hno : n ∈ g.nodes.order := (h.nodes.mem_iff _).2 (Dict.mem_keys_of_get? hx)
      obtain ⟨ins, hins⟩ := h.inn.get hno
      obtain ⟨g1, a1, a2, a3, a4⟩ := removeEdges_ok h (o.inn n ins) ((o.inn_perm n ins).nodup_iff.2 (h.inn.nodup _ _ hins)) (by
        intro e he
        obtain ⟨ed, hed, _⟩ := (h.inn.spec _ _ hins e).1 ((o.inn_perm n ins).mem_iff.1 he)
        exact Dict.mem_keys_of_get? hed)
      obtain ⟨outs, houts⟩ := a2.out.get (by rw [a3]; exact hno)
      obtain ⟨g2, b1, b2, b3, b4⟩ := removeEdges_ok a2 (o.out n outs)
        ((o.out_perm n outs).nodup_iff.2 (a2.out.nodup _ _ houts)) (by
        intro e he
        obtain ⟨ed, hed, _⟩ := (a2.out.spec _ _ houts e).1 ((o.out_perm n outs).mem_iff.1 he)
        exact Dict.mem_keys_of_get? hed)
      have c1 : Cfg g1 := by have := removeEdges_cfg h hc (o.inn n ins); rw [a1] at this; exact this
      have c2 : Cfg g2 := by have := removeEdges_cfg a2 c1 (o.out n outs); rw [b1] at this; exact this
      have hx2 : g2.nodes.items.get? n = some x := by rw [b3, a3]; exact hx
      simp only [removeNode, hx, hins, a1, houts, b1, Pile.remove_ok b2.nodes hx2]
      exact ⟨c2.nt, c2.ns, c2.np, c2.et, c2.es, c2.ep⟩

theorem Cfg.step {g : Graph ι ν ε} (h : GInv g) (hc : Cfg g) (op : Op ι ν ε) : Cfg (step g op).1 := by
  cases op with
  | addNode a =>
    show Cfg (addNode g a).1
    rcases addNode_cases h a with ⟨e, he⟩ | ⟨x, rfl, hx, he⟩
    · rw [he]; exact hc
    · rw [he]; exact ⟨hc.nt, hc.ns, hc.np, hc.et, hc.es, hc.ep⟩
  | removeNode o r => exact removeNode_cfg h hc o r
  | addEdge a =>
    show Cfg (addEdge g a).1
    rcases addEdge_cases h a with ⟨e, he⟩ | ⟨x, l, m, rfl, hk, h1, h2, hl, hm, he⟩
    · rw [he]; exact hc
    · rw [he]; exact ⟨hc.nt, hc.ns, hc.np, hc.et, hc.es, hc.ep⟩
  | removeEdge r => exact removeEdge_cfg h hc r

theorem cfg_empty : Cfg ({} : Graph ι ν ε) := ⟨rfl, rfl, rfl, rfl, rfl, rfl⟩

theorem run_ok (ops : List (Op ι ν ε)) {g : Graph ι ν ε} (h : GInv g) (hc : Cfg g) : GInv (run g ops) ∧ Cfg (run g ops) := by
  induction ops generalizing g with
  | nil => exact ⟨h, hc⟩
  | cons op ops ih => exact ih (h.step op) (hc.step h op)

theorem valid_any {δ : Type} (x : Item ι Unit δ) : Pile.validType anySub (some [()]) false x = true := by
  simp [Pile.validType]

/-! ## C15 — histories, edges and neighbour queries -/

/-- What the user sees: iterating over the nodes and over the edges. -/
def Shows (g : Graph ι ν ε) (s : SG ι ν ε) : Prop := Pile.iter g.nodes = .ok s.nodes ∧ Pile.iter g.edges = .ok s.edges

/-- The visible state. -/
def view (g : Graph ι ν ε) : SG ι ν ε := ⟨Pile.abs g.nodes, Pile.abs g.edges⟩

theorem shows_iff {g : Graph ι ν ε} (h : GInv g) (s : SG ι ν ε) : Shows g s ↔ s = view g := by
  unfold Shows
  rw [Pile.iter_eq h.nodes, Pile.iter_eq h.edges]
  cases s
  simp only [Except.ok.injEq, view, SG.mk.injEq]
  exact ⟨fun h => ⟨h.1.symm, h.2.symm⟩, fun h => ⟨h.1.symm, h.2.symm⟩⟩

theorem isNode_iff {g : Graph ι ν ε} (h : GInv g) (n : ι) : (view g).IsNode n ↔ n ∈ g.nodes.order := by
  unfold SG.IsNode view
  rw [Pile.abs_ids h.nodes]

theorem find_abs {γ δ : Type} [DecidableEq γ] {p : Pile ι γ δ} (h : Pile.Inv p) (u : ι) :
    (Pile.abs p).find? (fun e => decide (e.id = u)) = p.items.get? u := Pile.lookup_abs h u

/-- One call does what the specification says. -/
theorem step_spec {g : Graph ι ν ε} (h : GInv g) (hc : Cfg g) (op : Op ι ν ε) :
    (step g op).2 = ((view g).step op).map Prod.snd ∧ view (step g op).1 = (view g).next op := by
  unfold SG.next
  cases op with
  | addNode a =>
    cases a with
    | none => exact ⟨rfl, rfl⟩
    | some x =>
      have hv := valid_any x
      simp only [step, SG.step, isNode_iff h]
      by_cases hx : x.id ∈ g.nodes.order
      · have hh : g.nodes.items.has x.id = true := (Dict.has_iff _ _).2 ((h.nodes.mem_iff _).1 hx)
        have : addNode g (some x) = (g, .error .exists_) := by
          simp [addNode, Pile.add, hc.nt, hc.ns, hv, hh]
        rw [this, if_pos hx]
        exact ⟨rfl, rfl⟩
      · have hk : x.id ∉ g.nodes.items.keys := fun hm => hx ((h.nodes.mem_iff _).2 hm)
        have hh : g.nodes.items.has x.id = false := (Dict.has_eq_false_iff _ _).2 hk
        rcases addNode_cases h (some x) with ⟨e, he⟩ | ⟨y, hy, _, he⟩
        · simp [addNode, Pile.add, hc.nt, hc.ns, hv, hh] at he
        · cases hy
          rw [he, if_neg hx]
          refine ⟨rfl, ?_⟩
          simp only [view]
          rw [(Pile.abs_add h.nodes x hk).2]
  | addEdge a =>
    cases a with
    | none => exact ⟨rfl, rfl⟩
    | some x =>
      have hv := valid_any x
      have hcf : ∀ n, Pile.contains g.nodes (some n) = false ↔ n ∉ g.nodes.order := by
        intro n; rw [h.nodes.mem_iff]; exact Dict.has_eq_false_iff _ _
      have hm : x.id ∈ (view g).edges.map Item.id ↔ x.id ∈ g.edges.items.keys := by
        unfold view; rw [Pile.abs_ids h.edges, h.edges.mem_iff]
      simp only [step, SG.step, isNode_iff h, hm]
      by_cases h1 : x.data.head ∈ g.nodes.order
      · by_cases h2 : x.data.tail ∈ g.nodes.order
        · rw [if_neg (by simp [h1, h2])]
          by_cases hk : x.id ∈ g.edges.items.keys
          · have hh : g.edges.items.has x.id = true := (Dict.has_iff _ _).2 hk
            have : addEdge g (some x) = (g, .error .exists_) := by
              simp only [addEdge]
              rw [if_neg (by rw [hcf]; exact not_not_intro h1), if_neg (by rw [hcf]; exact not_not_intro h2)]
              simp [Pile.add, hc.et, hc.es, hv, hh]
            rw [this, if_pos hk]
            exact ⟨rfl, rfl⟩
          · have hh : g.edges.items.has x.id = false := (Dict.has_eq_false_iff _ _).2 hk
            rcases addEdge_cases h (some x) with ⟨e, he⟩ | ⟨y, l, m, hy, _, _, _, _, _, he⟩
            · obtain ⟨l, hl⟩ := h.out.get h1
              obtain ⟨m, hm'⟩ := h.inn.get h2
              simp only [addEdge] at he
              rw [if_neg (by rw [hcf]; exact not_not_intro h1), if_neg (by rw [hcf]; exact not_not_intro h2)] at he
              simp [Pile.add, hc.et, hc.es, hv, hh, hl, hm'] at he
            · cases hy
              rw [he, if_neg hk]
              refine ⟨rfl, ?_⟩
              simp only [view]
              rw [(Pile.abs_add h.edges x hk).2]
        · have : addEdge g (some x) = (g, .error .notFound) := by
            simp only [addEdge]
            rw [if_neg (by rw [hcf]; exact not_not_intro h1), if_pos ((hcf _).2 h2)]
          rw [this, if_pos (Or.inr h2)]
          exact ⟨rfl, rfl⟩
      · have : addEdge g (some x) = (g, .error .notFound) := by
          simp only [addEdge]; rw [if_pos ((hcf _).2 h1)]
        rw [this, if_pos (Or.inl h1)]
        exact ⟨rfl, rfl⟩
  | removeEdge r =>
    cases r with
    | none => exact ⟨rfl, rfl⟩
    | some u =>
      simp only [step, SG.step]
      rw [show (view g).edges.find? (fun e => decide (e.id = u)) = g.edges.items.get? u from find_abs h.edges u]
      cases hx : g.edges.items.get? u with
      | none =>
        have : removeEdge g (some u) = (g, .error .notFound) := by simp only [removeEdge, hx]
        rw [this]; exact ⟨rfl, rfl⟩
      | some x =>
        obtain ⟨g', h1, h2, h3, h4⟩ := removeEdge_ok h hx
        rw [h1]
        refine ⟨rfl, ?_⟩
        simp only [view, h3]
        rw [h4, (Pile.abs_del h.edges u).2]
        rfl
  | removeNode o r =>
    cases r with
    | none => exact ⟨rfl, rfl⟩
    | some u =>
      simp only [step, SG.step]
      rw [show (view g).nodes.find? (fun e => decide (e.id = u)) = g.nodes.items.get? u from find_abs h.nodes u]
      cases hx : g.nodes.items.get? u with
      | none =>
        have : removeNode o g (some u) = (g, .error .notFound) := by simp only [removeNode, hx]
        rw [this]; exact ⟨rfl, rfl⟩
      | some x =>
        obtain ⟨g', h1, h2, h3, h4⟩ := removeNode_ok h o hx
        rw [h1]
        refine ⟨rfl, ?_⟩
        simp only [view, h3, h4]

theorem run_view (ops : List (Op ι ν ε)) : view (run ({} : Graph ι ν ε) ops) = SG.run ops := by
  have : ∀ (g : Graph ι ν ε) (s : SG ι ν ε), GInv g → Cfg g → view g = s → view (run g ops) = ops.foldl SG.next s := by
    induction ops with
    | nil => intro g s _ _ h; exact h
    | cons op ops ih =>
      intro g s h hc hs
      exact ih _ _ (h.step op) (hc.step h op) (by rw [(step_spec h hc op).2, hs])
  exact this {} {} ginv_empty cfg_empty rfl

/-- **C15** (histories).  After any history on an empty graph the nodes and edges are those of the specification
`Digraph.SG`, and the next call returns or raises exactly what the specification says (in particular a call that raises
changes nothing). -/
theorem C15_history (ops : List (Op ι ν ε)) (op : Op ι ν ε) :
    Shows (run {} ops) (SG.run ops) ∧
    (step (run {} ops) op).2 = ((SG.run ops).step op).map Prod.snd ∧
    Shows (step (run {} ops) op).1 ((SG.run ops).next op) := by
  obtain ⟨h, hc⟩ := run_ok ops (ginv_empty (ν := ν) (ε := ε)) cfg_empty
  have hv := run_view ops
  have hs := step_spec h hc op
  refine ⟨(shows_iff h _).2 hv.symm, by rw [hs.1, hv], ?_⟩
  rw [shows_iff (h.step op), hs.2, hv]

/-- **C15** (end points).  After any history every edge connects two nodes of the graph. -/
theorem C15_endpoints (ops : List (Op ι ν ε)) (s : SG ι ν ε) (hs : Shows (run {} ops) s) :
    ∀ e ∈ s.edges, s.IsNode e.data.head ∧ s.IsNode e.data.tail := by
  obtain ⟨h, _⟩ := run_ok ops (ginv_empty (ν := ν) (ε := ε)) cfg_empty
  rw [shows_iff h] at hs
  subst hs
  intro e he
  rw [isNode_iff h, isNode_iff h]
  exact h.ends e.id e ((mem_abs_edge h e).1 he)

/-- The edge ids listed for a node are those of the edges selected by that node. -/
theorem adj_perm {g : Graph ι ν ε} (h : GInv g) {sel : EdgeData ι ε → ι} {d : Dict ι (List ι)}
    (ha : AdjOK sel d g.nodes.order g.edges.items) (hsel : ∀ e ∈ Pile.abs g.edges, sel e.data ∈ g.nodes.order) (n : ι) :
    (adj d n).Perm (((Pile.abs g.edges).filter (fun e => decide (sel e.data = n))).map Item.id) := by
  have hnd : (((Pile.abs g.edges).filter (fun e => decide (sel e.data = n))).map Item.id).Nodup :=
    List.Nodup.sublist (List.Sublist.map _ List.filter_sublist) (Pile.abs_nodup h.edges)
  by_cases hn : n ∈ g.nodes.order
  · obtain ⟨l, hl⟩ := ha.get hn
    rw [adj_eq hl, List.perm_ext_iff_of_nodup (ha.nodup n l hl) hnd]
    intro e
    rw [ha.spec n l hl e, List.mem_map]
    constructor
    · rintro ⟨ed, hed, hs⟩
      have hid := h.edges.ids e ed hed
      exact ⟨ed, List.mem_filter.2 ⟨(mem_abs_edge h ed).2 (by rw [hid]; exact hed), by simpa using hs⟩, hid⟩
    · rintro ⟨ed, hm, rfl⟩
      rw [List.mem_filter] at hm
      exact ⟨ed, (mem_abs_edge h ed).1 hm.1, by simpa using hm.2⟩
  · have h1 : d.get? n = none := (Dict.get?_eq_none_iff _ _).2 (by rw [ha.keys]; exact hn)
    have h2 : (Pile.abs g.edges).filter (fun e => decide (sel e.data = n)) = [] := by
      rw [List.filter_eq_nil_iff]
      intro e he hc
      have : sel e.data = n := by simpa using hc
      exact hn (this ▸ hsel e he)
    simp [adj, h1, h2]

theorem filterMap_get_abs {g : Graph ι ν ε} (h : GInv g) (l : List (Item ι Unit (EdgeData ι ε)))
    (hl : ∀ e ∈ l, e ∈ Pile.abs g.edges) : (l.map Item.id).filterMap g.edges.items.get? = l := by
  induction l with
  | nil => rfl
  | cons e l ih =>
    simp only [List.map_cons, List.filterMap_cons, (mem_abs_edge h e).1 (hl e (by simp))]
    rw [ih (fun x hx => hl x (by simp [hx]))]

/-- The other end of each edge in the list, looked up among the nodes. -/
theorem neighbours_ok {g : Graph ι ν ε} (h : GInv g) (f : ι → Except Exc (Item ι Unit ν)) (sel : EdgeData ι ε → ι)
    (hf : ∀ e ed x, g.edges.items.get? e = some ed → g.nodes.items.get? (sel ed.data) = some x → f e = .ok x)
    (hends : ∀ e ed, g.edges.items.get? e = some ed → sel ed.data ∈ g.nodes.order)
    (es : List ι) (E : List (Item ι Unit (EdgeData ι ε))) (hE : ∀ e ∈ E, e ∈ Pile.abs g.edges) (hp : es.Perm (E.map Item.id)) :
    ∃ l, mapE f es = .ok l ∧ (∀ x ∈ l, x ∈ Pile.abs g.nodes) ∧
      (l.map Item.id).Perm (E.map (fun e => sel e.data)) := by
  let G : ι → Option (Item ι Unit ν) := fun e => (g.edges.items.get? e).bind (fun ed => g.nodes.items.get? (sel ed.data))
  have hG : ∀ e ∈ es, ∃ b, f e = .ok b ∧ G e = some b := by
    intro e he
    obtain ⟨ed, hed, rfl⟩ := List.mem_map.1 (hp.mem_iff.1 he)
    have h1 := (mem_abs_edge h ed).1 (hE ed hed)
    obtain ⟨x, hx⟩ := h.node_get (hends _ _ h1)
    exact ⟨x, hf _ _ _ h1 hx, by simp [G, h1, hx]⟩
  have h1 := mapE_eq f G es hG
  refine ⟨_, h1, ?_, ?_⟩
  · intro x hx
    obtain ⟨e, _, he⟩ := List.mem_filterMap.1 hx
    simp only [G, Option.bind_eq_some_iff] at he
    obtain ⟨ed, _, hx⟩ := he
    have hid := h.nodes.ids _ _ hx
    exact (Pile.mem_abs h.nodes x).2 (by rw [hid]; exact hx)
  · have h2 : (es.filterMap G).Perm ((E.map Item.id).filterMap G) := hp.filterMap G
    refine (h2.map Item.id).trans ?_
    have h3 : ((E.map Item.id).filterMap G).map Item.id = E.map (fun e => sel e.data) := by
      clear hp h1 h2 hG
      induction E with
      | nil => rfl
      | cons e E ih =>
        have he := (mem_abs_edge h e).1 (hE e (by simp))
        obtain ⟨x, hx⟩ := h.node_get (hends _ _ he)
        have hGe : G e.id = some x := by simp [G, he, hx]
        simp only [List.map_cons, List.filterMap_cons, hGe]
        rw [ih (fun y hy => hE y (by simp [hy])), h.nodes.ids _ _ hx]
    rw [h3]

theorem successors_ok {g : Graph ι ν ε} (h : GInv g) (o : SetOrder ι) (n : ι) :
    ∃ l, getSuccessors o g (some n) = .ok l ∧ (∀ x ∈ l, x ∈ Pile.abs g.nodes) ∧
      (l.map Item.id).Perm (((Pile.abs g.edges).filter (fun e => decide (e.data.head = n))).map (fun e => e.data.tail)) := by
  refine neighbours_ok h (tailNode g) EdgeData.tail ?_ (fun e ed he => (h.ends e ed he).2) _ _
    (fun e he => (List.mem_filter.1 he).1) ((o.out_perm n _).trans (adj_perm h h.out
      (fun e he => (h.ends e.id e ((mem_abs_edge h e).1 he)).1) n))
  intro e ed x h1 h2
  simp only [tailNode, edge_ok h1, node_ok h2]

theorem predecessors_ok {g : Graph ι ν ε} (h : GInv g) (o : SetOrder ι) (n : ι) :
    ∃ l, getPredecessors o g (some n) = .ok l ∧ (∀ x ∈ l, x ∈ Pile.abs g.nodes) ∧
      (l.map Item.id).Perm (((Pile.abs g.edges).filter (fun e => decide (e.data.tail = n))).map (fun e => e.data.head)) := by
  refine neighbours_ok h (headNode g) EdgeData.head ?_ (fun e ed he => (h.ends e ed he).1) _ _
    (fun e he => (List.mem_filter.1 he).1) ((o.inn_perm n _).trans (adj_perm h h.inn
      (fun e he => (h.ends e.id e ((mem_abs_edge h e).1 he)).2) n))
  intro e ed x h1 h2
  simp only [headNode, edge_ok h1, node_ok h2]

theorem mapE_edge {g : Graph ι ν ε} (h : GInv g) (es : List ι) (E : List (Item ι Unit (EdgeData ι ε)))
    (hE : ∀ e ∈ E, e ∈ Pile.abs g.edges) (hp : es.Perm (E.map Item.id)) :
    ∃ l, mapE (edge g) es = .ok l ∧ l.Perm E := by
  have h1 := mapE_eq (edge g) g.edges.items.get? es (by
    intro e he
    obtain ⟨ed, hed, rfl⟩ := List.mem_map.1 (hp.mem_iff.1 he)
    have h1 := (mem_abs_edge h ed).1 (hE ed hed)
    exact ⟨ed, edge_ok h1, h1⟩)
  refine ⟨_, h1, ?_⟩
  have h2 := hp.filterMap g.edges.items.get?
  rw [filterMap_get_abs h E hE] at h2
  exact h2

theorem node_edges_ok {g : Graph ι ν ε} (h : GInv g) (o : SetOrder ι) (n : ι) (d : Dir) (hd : d ≠ .bad) :
    ∃ l, getNodeEdges o g (some n) d = .ok l ∧
      l.Perm ((if d = .in_ ∨ d = .both then (Pile.abs g.edges).filter (fun e => decide (e.data.tail = n)) else []) ++
        (if d = .out ∨ d = .both then (Pile.abs g.edges).filter (fun e => decide (e.data.head = n)) else [])) := by
  have hin := (o.inn_perm n _).trans (adj_perm h h.inn (fun e he => (h.ends e.id e ((mem_abs_edge h e).1 he)).2) n)
  have hout := (o.out_perm n _).trans (adj_perm h h.out (fun e he => (h.ends e.id e ((mem_abs_edge h e).1 he)).1) n)
  have key := mapE_edge h
    ((if d = .in_ ∨ d = .both then o.inn n (adj g.inn n) else []) ++ (if d = .out ∨ d = .both then o.out n (adj g.out n) else []))
    ((if d = .in_ ∨ d = .both then (Pile.abs g.edges).filter (fun e => decide (e.data.tail = n)) else []) ++
        (if d = .out ∨ d = .both then (Pile.abs g.edges).filter (fun e => decide (e.data.head = n)) else [])) (by
      intro e he
      rw [List.mem_append] at he
      rcases he with he | he
      · split at he
        · exact (List.mem_filter.1 he).1
        · cases he
      · split at he
        · exact (List.mem_filter.1 he).1
        · cases he) (by
      rw [List.map_append]
      refine List.Perm.append ?_ ?_
      · split
        · exact hin
        · exact .refl _
      · split
        · exact hout
        · exact .refl _)
  cases d with
  | bad => exact absurd rfl hd
  | in_ => exact key
  | out => exact key
  | both => exact key

theorem emptyKeys_ok {g : Graph ι ν ε} (h : GInv g) {sel : EdgeData ι ε → ι} {d : Dict ι (List ι)}
    (ha : AdjOK sel d g.nodes.order g.edges.items) (hsel : ∀ e ∈ Pile.abs g.edges, sel e.data ∈ g.nodes.order) :
    mapE (node g) (emptyKeys d) =
      .ok ((Pile.abs g.nodes).filter (fun x => decide (∀ e ∈ Pile.abs g.edges, sel e.data ≠ x.id))) := by
  have hwf : d.WF := by unfold Dict.WF; rw [ha.keys]; exact h.nodes.nodup
  have hempty : ∀ n l, d.get? n = some l → (l.isEmpty = decide (∀ e ∈ Pile.abs g.edges, sel e.data ≠ n)) := by
    intro n l hl
    have hp := adj_perm h ha hsel n
    rw [adj_eq hl] at hp
    rw [Bool.eq_iff_iff, List.isEmpty_iff, decide_eq_true_eq]
    constructor
    · rintro rfl e he hs
      have := hp.mem_iff.2 (List.mem_map.2 ⟨e, List.mem_filter.2 ⟨he, by simpa using hs⟩, rfl⟩)
      cases this
    · intro hall
      have : (Pile.abs g.edges).filter (fun e => decide (sel e.data = n)) = [] := by
        rw [List.filter_eq_nil_iff]
        intro e he hc
        exact hall e he (by simpa using hc)
      rw [this] at hp
      exact hp.eq_nil
  have hkeys : emptyKeys d = g.nodes.order.filter (fun n => decide (∀ e ∈ Pile.abs g.edges, sel e.data ≠ n)) := by
    rw [← ha.keys]
    have : ∀ d' : Dict ι (List ι), (∀ n l, (n, l) ∈ d' → d.get? n = some l) →
        emptyKeys d' = d'.keys.filter (fun n => decide (∀ e ∈ Pile.abs g.edges, sel e.data ≠ n)) := by
      intro d' hd'
      induction d' with
      | nil => rfl
      | cons kv d' ih =>
        obtain ⟨k, v⟩ := kv
        have h1 := hempty k v (hd' k v (by simp))
        have h2 := ih (fun n l hm => hd' n l (by simp [hm]))
        unfold emptyKeys at h2 ⊢
        simp only [List.filter_cons, Dict.keys_cons, h1]
        split
        · simp only [List.map_cons]; rw [h2]
        · exact h2
    exact this d (fun n l hm => (Dict.get?_iff_mem hwf n l).2 hm)
  rw [mapE_eq (node g) g.nodes.items.get? _ (by
    intro n hn
    rw [hkeys, List.mem_filter] at hn
    obtain ⟨x, hx⟩ := h.node_get hn.1
    exact ⟨x, node_ok hx, hx⟩), hkeys]
  congr 1
  unfold Pile.abs
  rw [List.filterMap_filter, List.filter_filterMap]
  apply filterMap_congr'
  intro n hn
  obtain ⟨x, hx⟩ := h.node_get hn
  have hid := h.nodes.ids n x hx
  simp only [hx, Option.filter, hid]

/-- **C15** (neighbours).  After any history, for every iteration order of the adjacency sets: `get_successors(n)` lists the
tail of every stored edge with head `n` (once per edge) and nothing else, `get_predecessors` symmetrically;
`get_node_edges` lists exactly the edges entering and / or leaving `n` (a self loop twice for `both`);
`get_heads` / `get_tails` are exactly the nodes without incoming / outgoing edge, in node order. -/
theorem C15_neighbours (ops : List (Op ι ν ε)) (s : SG ι ν ε) (hs : Shows (run {} ops) s) (o : SetOrder ι) (n : ι) :
    let g : Graph ι ν ε := run {} ops
    let into := s.edges.filter (fun e => decide (e.data.tail = n))
    let from_ := s.edges.filter (fun e => decide (e.data.head = n))
    (∃ l, getSuccessors o g (some n) = .ok l ∧ (∀ x ∈ l, x ∈ s.nodes) ∧ (l.map Item.id).Perm (from_.map (·.data.tail))) ∧
    (∃ l, getPredecessors o g (some n) = .ok l ∧ (∀ x ∈ l, x ∈ s.nodes) ∧ (l.map Item.id).Perm (into.map (·.data.head))) ∧
    (∃ l, getNodeEdges o g (some n) .in_ = .ok l ∧ l.Perm into) ∧
    (∃ l, getNodeEdges o g (some n) .out = .ok l ∧ l.Perm from_) ∧
    (∃ l, getNodeEdges o g (some n) .both = .ok l ∧ l.Perm (into ++ from_)) ∧
    getHeads g = .ok (s.nodes.filter (fun x => decide (∀ e ∈ s.edges, e.data.tail ≠ x.id))) ∧
    getTails g = .ok (s.nodes.filter (fun x => decide (∀ e ∈ s.edges, e.data.head ≠ x.id))) := by
  obtain ⟨h, _⟩ := run_ok ops (ginv_empty (ν := ν) (ε := ε)) cfg_empty
  rw [shows_iff h] at hs
  subst hs
  intro g into from_
  refine ⟨successors_ok h o n, predecessors_ok h o n, ?_, ?_, ?_, ?_, ?_⟩
  · have := node_edges_ok h o n .in_ (by simp)
    simp only [true_or, if_true, reduceCtorEq, or_self, if_false, List.append_nil] at this
    exact this
  · have := node_edges_ok h o n .out (by simp)
    simp only [true_or, if_true, reduceCtorEq, or_self, if_false, List.nil_append] at this
    exact this
  · have := node_edges_ok h o n .both (by simp)
    simp only [or_true, if_true] at this
    exact this
  · exact emptyKeys_ok h h.inn (fun e he => (h.ends e.id e ((mem_abs_edge h e).1 he)).2)
  · exact emptyKeys_ok h h.out (fun e he => (h.ends e.id e ((mem_abs_edge h e).1 he)).1)

/-- A three-node history with parallel edges, a self loop, a failed call and a removal: the hypotheses of C15–C19 are met by a
non-trivial graph. -/
def demo : List (Op Nat Unit Unit) :=
  [.addNode (some ⟨1, (), ()⟩), .addNode (some ⟨2, (), ()⟩), .addNode (some ⟨3, (), ()⟩),
   .addEdge (some ⟨10, (), ⟨1, 2, ()⟩⟩), .addEdge (some ⟨11, (), ⟨1, 2, ()⟩⟩), .addEdge (some ⟨12, (), ⟨2, 3, ()⟩⟩),
   .addEdge (some ⟨13, (), ⟨3, 3, ()⟩⟩), .addEdge (some ⟨14, (), ⟨3, 9, ()⟩⟩), .removeEdge (some 13)]

example : Shows (run {} demo) ⟨[⟨1, (), ()⟩, ⟨2, (), ()⟩, ⟨3, (), ()⟩],
    [⟨10, (), ⟨1, 2, ()⟩⟩, ⟨11, (), ⟨1, 2, ()⟩⟩, ⟨12, (), ⟨2, 3, ()⟩⟩]⟩ := ⟨by rfl, by rfl⟩

example : getSuccessors .id (run {} demo) (some 1) = .ok [⟨2, (), ()⟩, ⟨2, (), ()⟩] := by rfl
example : getHeads (run {} demo) = .ok [⟨1, (), ()⟩] := by rfl

/-! ## C16 — removing a node -/

/-- **C16**.  On any reachable graph `remove_node(n)` on a node returns it and leaves exactly the other nodes and the edges
not incident to it, in their order; on anything else it raises and changes nothing. -/
theorem C16_remove_node (ops : List (Op ι ν ε)) (s : SG ι ν ε) (hs : Shows (run {} ops) s) (o : SetOrder ι) (n : ι) :
    (∀ x ∈ s.nodes, x.id = n →
      ∃ g', removeNode o (run {} ops) (some n) = (g', .ok x) ∧
        Shows g' ⟨s.nodes.filter (fun y => decide (y.id ≠ n)),
          s.edges.filter (fun e => decide (e.data.head ≠ n ∧ e.data.tail ≠ n))⟩) ∧
    (n ∉ s.nodes.map Item.id → removeNode o (run {} ops) (some n) = (run {} ops, .error .notFound)) := by
  obtain ⟨h, _⟩ := run_ok ops (ginv_empty (ν := ν) (ε := ε)) cfg_empty
  rw [shows_iff h] at hs
  subst hs
  constructor
  · intro x hx hid
    have hx' : (run ({} : Graph ι ν ε) ops).nodes.items.get? n = some x := by
      rw [← hid]; exact (Pile.mem_abs h.nodes x).1 hx
    obtain ⟨g', h1, h2, h3, h4⟩ := removeNode_ok h o hx'
    exact ⟨g', h1, (shows_iff h2 _).2 (by simp only [view, h3, h4])⟩
  · intro hn
    have : (run ({} : Graph ι ν ε) ops).nodes.items.get? n = none := by
      rw [Dict.get?_eq_none_iff, ← h.nodes.mem_iff]
      rwa [show (view (run ({} : Graph ι ν ε) ops)).nodes.map Item.id = _ from Pile.abs_ids h.nodes] at hn
    simp only [removeNode, this]

/-- Non-vacuity of C16: node 2 of the demo has three incident edges. -/
example : ((removeNode .id (run {} demo) (some 2)).2 = .ok ⟨2, (), ()⟩) ∧
    Pile.iter (removeNode .id (run {} demo) (some 2)).1.edges = .ok [] := by
  constructor <;> rfl

/-! ## C17 — cycle detection -/

/-- **C17**.  On every reachable graph and for every iteration order: if `is_acyclic()` returns, the answer is right;
it can only fail with `RecursionError`, and it cannot fail when the graph has at most `limit` nodes, where `limit` is the number
of nested `dfs` calls the interpreter admits.  Not covered: on larger graphs it may raise, see `C17_deep_limit`. -/
theorem C17_is_acyclic (ops : List (Op ι ν ε)) (s : SG ι ν ε) (hs : Shows (run {} ops) s) (o : SetOrder ι)
    (limit : Nat) :
    (∀ b, isAcyclic o (run {} ops) limit = .ok b → (b = true ↔ Acyclic s.edges)) ∧
    (∀ e, isAcyclic o (run {} ops) limit = .error e → e = .recursionError ∧ limit < s.nodes.length) := by
  obtain ⟨h, _⟩ := run_ok ops (ginv_empty (ν := ν) (ε := ε)) cfg_empty
  rw [shows_iff h] at hs
  subst hs
  have := isAcyclic_spec h o limit
  refine ⟨this.1, ?_⟩
  intro e he
  have hl : (view (run ({} : Graph ι ν ε) ops)).nodes.length = (run ({} : Graph ι ν ε) ops).nodes.order.length := by
    rw [← Pile.abs_ids h.nodes]; simp [view]
  rw [hl]
  exact this.2 e he

/-- **C17** for graphs that fit the interpreter's recursion limit: the check returns, and decides acyclicity. -/
theorem C17_is_acyclic_within_limit (ops : List (Op ι ν ε)) (s : SG ι ν ε) (hs : Shows (run {} ops) s) (o : SetOrder ι)
    (limit : Nat) (hl : s.nodes.length ≤ limit) :
    ∃ b, isAcyclic o (run {} ops) limit = .ok b ∧ (b = true ↔ Acyclic s.edges) := by
  have := C17_is_acyclic ops s hs o limit
  cases hr : isAcyclic o (run ({} : Graph ι ν ε) ops) limit with
  | ok b => exact ⟨b, rfl, this.1 b hr⟩
  | error e => have := (this.2 e hr).2; omega

example : isAcyclic .id (run {} demo) 3 = .ok true := by rfl
example : isAcyclic .id (run {} (demo ++ [.addEdge (some ⟨20, (), ⟨3, 1, ()⟩⟩)])) 3 = .ok false := by rfl

/-! ## C18 — topological order -/

/-- **C18**.  On every reachable graph, for every iteration order, given enough loop iterations: `topological_sort()`
never runs forever; a returned list contains every node exactly once, with the head of every edge before its
tail; it raises `ValueError` only if the graph has a cycle, and the only other exception is the `RecursionError` of C17, impossible
when the number of nodes is within the recursion limit.  Not covered: the recursion limit, as in C17. -/
theorem C18_topological_sort (ops : List (Op ι ν ε)) (s : SG ι ν ε) (hs : Shows (run {} ops) s) (o : SetOrder ι)
    (limit fuel : Nat) (hf : s.nodes.length ≤ fuel) :
    (∃ r, topologicalSort o (run {} ops) limit fuel = some (.ok r) ∧ r.Perm s.nodes ∧ Acyclic s.edges ∧
      ∀ l1 x l2, r = l1 ++ x :: l2 → ∀ e ∈ s.edges, e.data.tail = x.id → ∃ y ∈ l1, y.id = e.data.head) ∨
    (topologicalSort o (run {} ops) limit fuel = some (.error .valueError) ∧ ¬ Acyclic s.edges) ∨
    (topologicalSort o (run {} ops) limit fuel = some (.error .recursionError) ∧ limit < s.nodes.length) := by
  have hc17 := C17_is_acyclic ops s hs o limit
  obtain ⟨h, _⟩ := run_ok ops (ginv_empty (ν := ν) (ε := ε)) cfg_empty
  rw [shows_iff h] at hs
  subst hs
  have hl : (view (run ({} : Graph ι ν ε) ops)).nodes.length = (run ({} : Graph ι ν ε) ops).nodes.order.length := by
    rw [← Pile.abs_ids h.nodes]; simp [view]
  cases hr : isAcyclic o (run ({} : Graph ι ν ε) ops) limit with
  | error e =>
    obtain ⟨rfl, h2⟩ := hc17.2 e hr
    exact Or.inr (Or.inr ⟨by simp only [topologicalSort, hr], h2⟩)
  | ok b =>
    have hb := hc17.1 b hr
    cases b with
    | false =>
      refine Or.inr (Or.inl ⟨by simp only [topologicalSort, hr], ?_⟩)
      intro hac
      exact absurd (hb.2 hac) (by simp)
    | true =>
      obtain ⟨r, h1, h2, h3, h4⟩ := topologicalSort_ok h o limit fuel hr (by rw [← hl]; exact hf)
      refine Or.inl ⟨r, h1, ?_, hb.1 rfl, ?_⟩
      · have hmap : r = (r.map Item.id).filterMap (run ({} : Graph ι ν ε) ops).nodes.items.get? := by
          clear h1 h3 h4
          induction r with
          | nil => rfl
          | cons x r ih =>
            simp only [List.map_cons, List.filterMap_cons, h2 x (by simp)]
            rw [← ih (fun y hy => h2 y (by simp [hy]))]
        rw [hmap]
        exact h3.filterMap _
      · intro l1 x l2 heq e he ht
        have := h4 (l1.map Item.id) x.id (l2.map Item.id) (by rw [heq]; simp) e.data.head ⟨e, he, rfl, ht⟩
        obtain ⟨y, hy, hy2⟩ := List.mem_map.1 this
        exact ⟨y, hy, hy2⟩

/-- **C18** for graphs that fit the recursion limit: a topological order is returned exactly when the graph is acyclic,
`ValueError` is raised exactly when it is not. -/
theorem C18_topological_sort_within_limit (ops : List (Op ι ν ε)) (s : SG ι ν ε) (hs : Shows (run {} ops) s)
    (o : SetOrder ι) (limit fuel : Nat) (hf : s.nodes.length ≤ fuel) (hl : s.nodes.length ≤ limit) :
    (Acyclic s.edges → ∃ r, topologicalSort o (run {} ops) limit fuel = some (.ok r) ∧ r.Perm s.nodes ∧
      ∀ l1 x l2, r = l1 ++ x :: l2 → ∀ e ∈ s.edges, e.data.tail = x.id → ∃ y ∈ l1, y.id = e.data.head) ∧
    (¬ Acyclic s.edges → topologicalSort o (run {} ops) limit fuel = some (.error .valueError)) := by
  rcases C18_topological_sort ops s hs o limit fuel hf with ⟨r, h1, h2, h3, h4⟩ | ⟨h1, h2⟩ | ⟨_, h2⟩
  · exact ⟨fun _ => ⟨r, h1, h2, h4⟩, fun h => absurd h3 h⟩
  · exact ⟨fun h => absurd h h2, fun _ => h1⟩
  · omega

example : topologicalSort .id (run {} demo) 3 3 = some (.ok [⟨1, (), ()⟩, ⟨2, (), ()⟩, ⟨3, (), ()⟩]) := by rfl

/-! ## C19 — shortest paths -/

/-- **C19**.  On every reachable graph, for every iteration order, all pairs of nodes and all condition answers, given
enough loop iterations `find_path` returns: a list of stored edges whose conditions hold, forming a walk from start to
goal, no longer than any other such walk; or `None`, exactly when no such walk exists. -/
theorem C19_find_path (ops : List (Op ι ν ε)) (s : SG ι ν ε) (hs : Shows (run {} ops) s) (o : SetOrder ι)
    (cond : ι → Bool) (a b : ι) (ha : s.IsNode a) (hb : s.IsNode b) (fuel : Nat) (hf : 2 * s.nodes.length ≤ fuel) :
    let allowed := s.edges.filter (fun e => cond e.id)
    (∃ p, findPath o (run {} ops) cond (some a) (some b) fuel = some (.ok (some p)) ∧ Walk allowed a p b ∧
      ∀ p', Walk allowed a p' b → p.length ≤ p'.length) ∨
    (findPath o (run {} ops) cond (some a) (some b) fuel = some (.ok none) ∧ ∀ p, ¬ Walk allowed a p b) := by
  obtain ⟨h, _⟩ := run_ok ops (ginv_empty (ν := ν) (ε := ε)) cfg_empty
  rw [shows_iff h] at hs
  subst hs
  rw [isNode_iff h] at ha hb
  have hl : (view (run ({} : Graph ι ν ε) ops)).nodes.length = (run ({} : Graph ι ν ε) ops).nodes.order.length := by
    rw [← Pile.abs_ids h.nodes]; simp [view]
  rw [hl] at hf
  have hct : ∀ n, n ∈ (run ({} : Graph ι ν ε) ops).nodes.order →
      Pile.contains (run ({} : Graph ι ν ε) ops).nodes (some n) = true :=
    fun n hn => (Dict.has_iff _ _).2 ((h.nodes.mem_iff _).1 hn)
  obtain ⟨r, h1, h2⟩ := bfsLoop_spec h o cond a b fuel [] 0 _ _ (bfs_start cond b ha) (by simpa using hf)
  have hfp : findPath o (run ({} : Graph ι ν ε) ops) cond (some a) (some b) fuel = some (.ok r) := by
    simp only [findPath, hct a ha, hct b hb]
    rw [if_neg (by simp)]
    exact h1
  intro allowed
  cases r with
  | some p => exact Or.inl ⟨p, hfp, h2.1, h2.2⟩
  | none => exact Or.inr ⟨hfp, h2⟩

/-- **C19**: a path from a node to itself is the empty list. -/
theorem C19_find_path_self (ops : List (Op ι ν ε)) (s : SG ι ν ε) (hs : Shows (run {} ops) s) (o : SetOrder ι)
    (cond : ι → Bool) (a : ι) (ha : s.IsNode a) (fuel : Nat) (hf : 2 * s.nodes.length ≤ fuel) :
    findPath o (run {} ops) cond (some a) (some a) fuel = some (.ok (some [])) := by
  rcases C19_find_path ops s hs o cond a a ha ha fuel hf with ⟨p, h1, _, h3⟩ | ⟨_, h2⟩
  · have := h3 [] rfl
    have : p = [] := List.length_eq_zero_iff.1 (by simpa using this)
    rw [h1, this]
  · exact absurd (show Walk _ a [] a from rfl) (h2 [])

/-- **C19**: an end point that is not a node of the graph raises `NotFoundError`. -/
theorem C19_find_path_unknown (ops : List (Op ι ν ε)) (s : SG ι ν ε) (hs : Shows (run {} ops) s) (o : SetOrder ι)
    (cond : ι → Bool) (a b : ι) (hab : ¬ s.IsNode a ∨ ¬ s.IsNode b) (fuel : Nat) :
    findPath o (run {} ops) cond (some a) (some b) fuel = some (.error .notFound) := by
  obtain ⟨h, _⟩ := run_ok ops (ginv_empty (ν := ν) (ε := ε)) cfg_empty
  rw [shows_iff h] at hs
  subst hs
  rw [isNode_iff h, isNode_iff h] at hab
  have hcf : ∀ n, n ∉ (run ({} : Graph ι ν ε) ops).nodes.order →
      Pile.contains (run ({} : Graph ι ν ε) ops).nodes (some n) = false :=
    fun n hn => (Dict.has_eq_false_iff _ _).2 (fun hk => hn ((h.nodes.mem_iff _).2 hk))
  simp only [findPath]
  rw [if_pos]
  rcases hab with h' | h'
  · exact Or.inl (hcf _ h')
  · exact Or.inr (hcf _ h')

example : findPath .id (run {} demo) (fun _ => true) (some 1) (some 3) 6 =
    some (.ok (some [⟨10, (), ⟨1, 2, ()⟩⟩, ⟨12, (), ⟨2, 3, ()⟩⟩])) := by rfl
example : findPath .id (run {} demo) (fun e => e != 10) (some 1) (some 3) 6 =
    some (.ok (some [⟨11, (), ⟨1, 2, ()⟩⟩, ⟨12, (), ⟨2, 3, ()⟩⟩])) := by rfl
example : findPath .id (run {} demo) (fun e => e != 12) (some 1) (some 3) 6 = some (.ok none) := by rfl

end Verif.Graph
