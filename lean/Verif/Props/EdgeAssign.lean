import Verif.Model.EdgeAssign
import Verif.Props.GraphSerial

/-!
# C294 — edges that get new end points while they are in a graph

Specification: a graph as the user sees it (`now`), and the graph as it was when each edge was filed: at its addition, or at the last assignment to a field of the graph (`filed`).
-/

set_option linter.unusedSectionVars false
set_option linter.unusedSimpArgs false
set_option linter.unusedVariables false

namespace Verif.Graph

open Digraph

variable {ι ν ε : Type} [DecidableEq ι]

/-- The graph now, and the graph with the ends under which its edges were filed. -/
structure Two (ι ν ε : Type) where
  now : SG ι ν ε := {}
  filed : SG ι ν ε := {}

/-- The edge with other ends. -/
def repoint (e h t : ι) (x : Item ι Unit (EdgeData ι ε)) : Item ι Unit (EdgeData ι ε) :=
  if x.id = e then { x with data := { x.data with head := h, tail := t } } else x

/-- What one act does: calls act on both, an assignment to an edge on what is seen, an assignment to the graph files everything anew. -/
def Two.next (t : Two ι ν ε) : EAct ι ν ε → Two ι ν ε
  | .op o => ⟨t.now.next o, t.filed.next o⟩
  | .assign e h k => { t with now := { t.now with edges := t.now.edges.map (repoint e h k) } }
  | .refresh => ⟨t.now, t.now⟩

/-- The acts considered: things are removed only while every edge is filed under its ends; a field of the graph is assigned only while all ends are nodes. -/
def Two.Fits (t : Two ι ν ε) : EAct ι ν ε → Prop
  | .op (.removeEdge _) => t.now = t.filed
  | .op (.removeNode _ _) => t.now = t.filed
  | .refresh => ∀ e ∈ t.now.edges, t.now.IsNode e.data.head ∧ t.now.IsNode e.data.tail
  | _ => True

/-- Every act of a history is one of those considered. -/
def Two.AllFit (t : Two ι ν ε) : List (EAct ι ν ε) → Prop
  | [] => True
  | a :: as => t.Fits a ∧ (t.next a).AllFit as

/-- The two graphs after a history on an empty graph. -/
def Two.run (as : List (EAct ι ν ε)) : Two ι ν ε := as.foldl Two.next {}

/-- The ids of the edges that were filed as leaving / entering `n`. -/
def Two.outs (t : Two ι ν ε) (n : ι) : List ι := (t.filed.edges.filter (fun e => decide (e.data.head = n))).map Item.id
def Two.ins (t : Two ι ν ε) (n : ι) : List ι := (t.filed.edges.filter (fun e => decide (e.data.tail = n))).map Item.id

/-- The edges of the graph, as they are now, among the given ids. -/
def Two.among (t : Two ι ν ε) (ids : List ι) : List (Item ι Unit (EdgeData ι ε)) := t.now.edges.filter (fun e => decide (e.id ∈ ids))

/-! ## Invariant -/

structure EInv (g g₀ : Graph ι ν ε) (t : Two ι ν ε) : Prop where
  inv : GInv g₀
  cfg : Cfg g₀
  old : view g₀ = t.filed
  nodes : g.nodes = g₀.nodes
  out : g.out = g₀.out
  inn : g.inn = g₀.inn
  edges : Pile.Inv g.edges
  order : g.edges.order = g₀.edges.order
  et : g.edges.itemType = some [()]
  es : g.edges.strict = false
  ep : g.edges.pname = none
  now : Pile.abs g.edges = t.now.edges
  same : t.now.nodes = t.filed.nodes

theorem EInv.clean {g : Graph ι ν ε} (h : GInv g) (hc : Cfg g) : EInv g g ⟨view g, view g⟩ :=
  ⟨h, hc, rfl, rfl, rfl, rfl, h.edges, rfl, hc.et, hc.es, hc.ep, rfl, rfl⟩

theorem einv_empty : EInv ({} : Graph ι ν ε) {} {} := EInv.clean ginv_empty cfg_empty

theorem EInv.view_now {g g₀ : Graph ι ν ε} {t : Two ι ν ε} (h : EInv g g₀ t) : view g = t.now := by
  have h1 : Pile.abs g₀.nodes = t.filed.nodes := congrArg SG.nodes h.old
  have h2 := h.now
  have h3 := h.same
  unfold view
  rw [h.nodes, h1, h2, ← h3]

theorem EInv.keys {g g₀ : Graph ι ν ε} {t : Two ι ν ε} (h : EInv g g₀ t) (u : ι) :
    u ∈ g.edges.items.keys ↔ u ∈ g₀.edges.items.keys := by
  rw [← h.edges.mem_iff, ← h.inv.edges.mem_iff, h.order]

theorem EInv.ids {g g₀ : Graph ι ν ε} {t : Two ι ν ε} (h : EInv g g₀ t) : t.now.edges.map Item.id = t.filed.edges.map Item.id := by
  rw [← h.now, ← h.old, Pile.abs_ids h.edges, h.order]
  exact (Pile.abs_ids h.inv.edges).symm

theorem EInv.toGInv {g g₀ : Graph ι ν ε} {t : Two ι ν ε} (h : EInv g g₀ t) (he : t.now = t.filed) : GInv g ∧ Cfg g := by
  have ha : Pile.abs g.edges = Pile.abs g₀.edges := by
    rw [h.now, he, ← h.old]; rfl
  have hg : ∀ u, g₀.edges.items.get? u = g.edges.items.get? u := by
    intro u
    rw [← find_abs h.edges, ← find_abs h.inv.edges, ha]
  refine ⟨⟨by rw [h.nodes]; exact h.inv.nodes, h.edges, ?_, ?_, ?_⟩, ⟨by rw [h.nodes]; exact h.cfg.nt, by rw [h.nodes]; exact h.cfg.ns, by rw [h.nodes]; exact h.cfg.np, h.et, h.es, h.ep⟩⟩
  · rw [h.out, h.nodes]; exact h.inv.out.congr hg
  · rw [h.inn, h.nodes]; exact h.inv.inn.congr hg
  · intro e ed hed
    rw [← hg] at hed
    rw [h.nodes]; exact h.inv.ends e ed hed

theorem next_addNode_edges (s : SG ι ν ε) (a : Pile.Arg ι Unit ν) : (s.next (.addNode a)).edges = s.edges := by
  cases a with
  | none => rfl
  | some x =>
    by_cases h : s.IsNode x.id <;> simp [SG.next, SG.step, h]

theorem next_addNode_nodes (s s' : SG ι ν ε) (hs : s.nodes = s'.nodes) (a : Pile.Arg ι Unit ν) :
    (s.next (.addNode a)).nodes = (s'.next (.addNode a)).nodes := by
  cases a with
  | none => exact hs
  | some x =>
    by_cases h : s.IsNode x.id
    · have h' : s'.IsNode x.id := by unfold SG.IsNode; rw [← hs]; exact h
      simp [SG.next, SG.step, h, h', hs]
    · have h' : ¬ s'.IsNode x.id := by unfold SG.IsNode; rw [← hs]; exact h
      simp [SG.next, SG.step, h, h', hs]

theorem EInv.addNode {g g₀ : Graph ι ν ε} {t : Two ι ν ε} (h : EInv g g₀ t) (a : Pile.Arg ι Unit ν) :
    EInv (step g (.addNode a)).1 (step g₀ (.addNode a)).1 (t.next (.op (.addNode a))) := by
  have h1 := h.inv.step (.addNode a)
  have h2 := h.cfg.step h.inv (.addNode a)
  have h3 := (step_spec h.inv h.cfg (.addNode a)).2
  have hn : (Graph.addNode g a).1 = { (Graph.addNode g₀ a).1 with edges := g.edges } ∧ (Graph.addNode g₀ a).1.edges = g₀.edges := by
    rcases g with ⟨n, e, o, i⟩
    have e1 := h.nodes; have e2 := h.out; have e3 := h.inn
    simp only at e1 e2 e3
    subst e1; subst e2; subst e3
    cases a with
    | none => exact ⟨rfl, rfl⟩
    | some x =>
      rcases Pile.add_cases anySub g₀.nodes (some x) with ⟨e, he⟩ | ⟨y, hy, hk, he⟩ <;> simp only [Graph.addNode, he] <;> exact ⟨trivial, trivial⟩
  have hs1 : (step g (.addNode a)).1 = (Graph.addNode g a).1 := rfl
  have hs2 : (step g₀ (.addNode a)).1 = (Graph.addNode g₀ a).1 := rfl
  refine ⟨h1, h2, by rw [h3, h.old]; rfl, ?_, ?_, ?_, ?_, ?_, ?_, ?_, ?_, ?_, ?_⟩
  · rw [hs1, hs2, hn.1]
  · rw [hs1, hs2, hn.1]
  · rw [hs1, hs2, hn.1]
  · rw [hs1, hn.1]; exact h.edges
  · rw [hs1, hs2, hn.1, hn.2]; exact h.order
  · rw [hs1, hn.1]; exact h.et
  · rw [hs1, hn.1]; exact h.es
  · rw [hs1, hn.1]; exact h.ep
  · rw [hs1, hn.1]
    show Pile.abs g.edges = (t.now.next (.addNode a)).edges
    rw [next_addNode_edges, h.now]
  · exact next_addNode_nodes _ _ h.same a

theorem EInv.addEdge {g g₀ : Graph ι ν ε} {t : Two ι ν ε} (h : EInv g g₀ t) (a : Pile.Arg ι Unit (EdgeData ι ε)) :
    EInv (step g (.addEdge a)).1 (step g₀ (.addEdge a)).1 (t.next (.op (.addEdge a))) := by
  have h1 := h.inv.step (.addEdge a)
  have h2 := h.cfg.step h.inv (.addEdge a)
  have h3 := step_spec h.inv h.cfg (.addEdge a)
  have hs1 : (step g (.addEdge a)).1 = (Graph.addEdge g a).1 := rfl
  have hs2 : (step g₀ (.addEdge a)).1 = (Graph.addEdge g₀ a).1 := rfl
  cases a with
  | none => exact h
  | some x =>
    have hN : ∀ n, t.now.IsNode n ↔ t.filed.IsNode n := by intro n; unfold SG.IsNode; rw [h.same]
    have hi := h.ids
    have hcon : ∀ n, Pile.contains g.nodes (some n) = Pile.contains g₀.nodes (some n) := by intro n; rw [h.nodes]
    have hcN : ∀ n, Pile.contains g₀.nodes (some n) = true ↔ t.filed.IsNode n := by
      intro n
      rw [← h.old, isNode_iff h.inv]
      show g₀.nodes.items.has n = true ↔ _
      rw [Dict.has_iff, h.inv.nodes.mem_iff]
    by_cases hb : ¬ t.filed.IsNode x.data.head ∨ ¬ t.filed.IsNode x.data.tail
    · have hb' : ¬ t.now.IsNode x.data.head ∨ ¬ t.now.IsNode x.data.tail := by rw [hN, hN]; exact hb
      have e1 : ∀ G : Graph ι ν ε, G.nodes = g₀.nodes → (Graph.addEdge G (some x)).1 = G := by
        intro G hG
        simp only [Graph.addEdge, hG]
        by_cases hh : Pile.contains g₀.nodes (some x.data.head) = false
        · rw [if_pos hh]
        · rw [if_neg hh]
          have : Pile.contains g₀.nodes (some x.data.tail) = false := by
            cases hc : Pile.contains g₀.nodes (some x.data.tail) with
            | false => rfl
            | true =>
              exfalso
              have hh' : Pile.contains g₀.nodes (some x.data.head) = true := by
                cases hq : Pile.contains g₀.nodes (some x.data.head) with
                | false => exact absurd hq hh
                | true => rfl
              rcases hb with hb | hb
              · exact hb ((hcN _).1 hh')
              · exact hb ((hcN _).1 hc)
          rw [if_pos this]
      have e2 : t.next (.op (.addEdge (some x))) = t := by
        simp only [Two.next, SG.next, SG.step, if_pos hb, if_pos hb']
      rw [hs1, hs2, e1 g h.nodes, e1 g₀ rfl, e2]
      exact h
    · have hb' : ¬ (¬ t.now.IsNode x.data.head ∨ ¬ t.now.IsNode x.data.tail) := by rw [hN, hN]; exact hb
      have c1 : ¬ Pile.contains g₀.nodes (some x.data.head) = false := by
        have : t.filed.IsNode x.data.head := Decidable.not_not.1 (fun q => hb (Or.inl q))
        rw [(hcN _).2 this]; decide
      have c2 : ¬ Pile.contains g₀.nodes (some x.data.tail) = false := by
        have : t.filed.IsNode x.data.tail := Decidable.not_not.1 (fun q => hb (Or.inr q))
        rw [(hcN _).2 this]; decide
      by_cases hm : x.id ∈ t.filed.edges.map Item.id
      · have hm' : x.id ∈ t.now.edges.map Item.id := by rw [hi]; exact hm
        have hk : x.id ∈ g.edges.items.keys := by
          rw [← h.edges.mem_iff, ← Pile.abs_ids h.edges, h.now]; exact hm'
        have e1 : (Graph.addEdge g (some x)).1 = g := by
          simp [Graph.addEdge, hcon, c1, c2, Pile.add, h.et, h.es, valid_any, (Dict.has_iff _ _).2 hk]
        have e1' : (Graph.addEdge g₀ (some x)).1 = g₀ := by
          simp [Graph.addEdge, c1, c2, Pile.add, h.cfg.et, h.cfg.es, valid_any, (Dict.has_iff _ _).2 ((h.keys _).1 hk)]
        have e2 : t.next (.op (.addEdge (some x))) = t := by
          simp only [Two.next, SG.next, SG.step, if_neg hb, if_neg hb', if_pos hm, if_pos hm']
        rw [hs1, hs2, e1, e1', e2]
        exact h
      · have hm' : x.id ∉ t.now.edges.map Item.id := by rw [hi]; exact hm
        have hk : x.id ∉ g.edges.items.keys := by
          rw [← h.edges.mem_iff, ← Pile.abs_ids h.edges, h.now]; exact hm'
        have hk0 : x.id ∉ g₀.edges.items.keys := fun q => hk ((h.keys _).2 q)
        have hab := Pile.abs_add h.edges x hk
        rcases addEdge_cases h.inv (some x) with ⟨e, he⟩ | ⟨y, l, m, hy, _, _, _, hl, hm2, he⟩
        · exfalso
          have := h3.1
          rw [show (step g₀ (.addEdge (some x))).2 = ((Graph.addEdge g₀ (some x)).2).map (fun _ => Out.unit) from rfl, he] at this
          have hf : view g₀ = t.filed := h.old
          rw [hf] at this
          simp only [SG.step, if_neg hb, if_neg hm] at this
          cases this
        · cases hy
          have eg : Graph.addEdge g (some x) = ({ g with
              edges := { g.edges with items := g.edges.items.set x.id x, order := g.edges.order ++ [x.id] },
              out := g₀.out.set x.data.head (setAdd l x.id), inn := g₀.inn.set x.data.tail (setAdd m x.id) }, .ok ()) := by
            simp [Graph.addEdge, hcon, c1, c2, Pile.add, h.et, h.es, valid_any, (Dict.has_eq_false_iff _ _).2 hk, h.out, h.inn, hl, hm2]
          refine ⟨h1, h2, by rw [h3.2, h.old]; rfl, ?_, ?_, ?_, ?_, ?_, ?_, ?_, ?_, ?_, ?_⟩
          · rw [hs1, hs2, eg, he]; exact h.nodes
          · rw [hs1, hs2, eg, he]
          · rw [hs1, hs2, eg, he]
          · rw [hs1, eg]; exact hab.1
          · rw [hs1, hs2, eg, he]
            show g.edges.order ++ [x.id] = g₀.edges.order ++ [x.id]
            rw [h.order]
          · rw [hs1, eg]; exact h.et
          · rw [hs1, eg]; exact h.es
          · rw [hs1, eg]; exact h.ep
          · rw [hs1, eg]
            show Pile.abs { g.edges with items := g.edges.items.set x.id x, order := g.edges.order ++ [x.id] } = (t.now.next (.addEdge (some x))).edges
            rw [hab.2, h.now]
            simp only [SG.next, SG.step, if_neg hb', if_neg hm']
          · simp only [Two.next, SG.next, SG.step, if_neg hb', if_neg hm', if_neg hb, if_neg hm]
            exact h.same

theorem EInv.removal {g g₀ : Graph ι ν ε} {t : Two ι ν ε} (h : EInv g g₀ t) (he : t.now = t.filed) (o : Op ι ν ε) :
    EInv (step g o).1 (step g o).1 (t.next (.op o)) := by
  obtain ⟨h1, h2⟩ := h.toGInv he
  have h3 := (step_spec h1 h2 o).2
  have h4 := EInv.clean (h1.step o) (h2.step h1 o)
  have h5 : t.next (.op o) = ⟨view (step g o).1, view (step g o).1⟩ := by
    simp only [Two.next, h3, h.view_now, ← he]
  rw [h5]; exact h4

theorem assignEnds_cases (g : Graph ι ν ε) (e h t : ι) :
    (g.edges.items.get? e = none ∧ assignEnds g e h t = g) ∨
    (∃ x, g.edges.items.get? e = some x ∧ assignEnds g e h t =
      { g with edges := { g.edges with items := g.edges.items.set e { x with data := { x.data with head := h, tail := t } } } }) := by
  cases hx : g.edges.items.get? e with
  | none => exact Or.inl ⟨rfl, by simp only [assignEnds, hx]⟩
  | some x => exact Or.inr ⟨x, rfl, by simp only [assignEnds, hx]⟩

theorem EInv.assign {g g₀ : Graph ι ν ε} {t : Two ι ν ε} (h : EInv g g₀ t) (e hd tl : ι) :
    EInv (assignEnds g e hd tl) g₀ (t.next (.assign e hd tl)) := by
  rcases assignEnds_cases g e hd tl with ⟨hn, he⟩ | ⟨x, hx, he⟩
  · have hid : t.now.edges.map (repoint e hd tl) = t.now.edges := by
      have : ∀ y ∈ t.now.edges, repoint e hd tl y = y := by
        intro y hy
        have hy' : y.id ≠ e := by
          rintro rfl
          rw [← h.now] at hy
          rw [(Pile.mem_abs h.edges y).1 hy] at hn
          cases hn
        simp only [repoint, if_neg hy']
      rw [List.map_congr_left this, List.map_id']
    have : t.next (.assign e hd tl) = t := by simp only [Two.next, hid]
    rw [he, this]; exact h
  · have hidx := h.edges.ids e x hx
    let y : Item ι Unit (EdgeData ι ε) := { x with data := { x.data with head := hd, tail := tl } }
    have hyid : y.id = e := hidx
    have hk : y.id ∈ g.edges.items.keys := by rw [hyid]; exact Dict.mem_keys_of_get? hx
    have hs := Pile.abs_set h.edges y hk
    have hset : ({ g.edges with items := g.edges.items.set e y } : Pile ι Unit (EdgeData ι ε)) = { g.edges with items := g.edges.items.set y.id y } := by rw [hyid]
    rw [he]
    refine ⟨h.inv, h.cfg, h.old, h.nodes, h.out, h.inn, ?_, h.order, h.et, h.es, h.ep, ?_, h.same⟩
    · show Pile.Inv { g.edges with items := g.edges.items.set e y }
      rw [hset]; exact hs.1
    · show Pile.abs { g.edges with items := g.edges.items.set e y } = t.now.edges.map (repoint e hd tl)
      rw [hset, hs.2, h.now]
      unfold OMap.replace
      apply List.map_congr_left
      intro z hz
      rw [hyid]
      unfold repoint
      by_cases hze : z.id = e
      · have hzx : z = x := by
          rw [← h.now] at hz
          have := (Pile.mem_abs h.edges z).1 hz
          rw [hze, hx] at this
          cases this; rfl
        rw [if_pos hze, if_pos hze, hzx]
      · rw [if_neg hze, if_neg hze]

theorem EInv.refresh {g g₀ : Graph ι ν ε} {t : Two ι ν ε} (h : EInv g g₀ t)
    (hf : ∀ e ∈ t.now.edges, t.now.IsNode e.data.head ∧ t.now.IsNode e.data.tail) :
    EInv (Graph.refresh g) (Graph.refresh g) (t.next .refresh) := by
  have hN : ∀ n, t.now.IsNode n ↔ n ∈ g.nodes.order := by
    intro n
    rw [h.nodes, ← isNode_iff h.inv, h.old]
    unfold SG.IsNode; rw [h.same]
  have hni : Pile.Inv g.nodes := by rw [h.nodes]; exact h.inv.nodes
  obtain ⟨g', e1, e2, e3, e4⟩ := mk'_ginv (n := g.nodes) (e := g.edges) hni h.edges (by
    intro x hx
    rw [h.now] at hx
    exact ⟨(hN _).1 (hf x hx).1, (hN _).1 (hf x hx).2⟩)
  have hr : Graph.refresh g = g' := by simp only [Graph.refresh, e1]
  have hc : Cfg g' := ⟨by rw [e2, h.nodes]; exact h.cfg.nt, by rw [e2, h.nodes]; exact h.cfg.ns, by rw [e2, h.nodes]; exact h.cfg.np,
    by rw [e3]; exact h.et, by rw [e3]; exact h.es, by rw [e3]; exact h.ep⟩
  have hv : view g' = t.now := by rw [← h.view_now]; unfold view; rw [e2, e3]
  have := EInv.clean e4 hc
  rw [hv] at this
  rw [hr]; exact this

theorem EInv.step {g g₀ : Graph ι ν ε} {t : Two ι ν ε} (h : EInv g g₀ t) (a : EAct ι ν ε) (hf : t.Fits a) :
    ∃ g₁, EInv (eStep g a) g₁ (t.next a) := by
  cases a with
  | op o =>
    cases o with
    | addNode a => exact ⟨_, h.addNode a⟩
    | addEdge a => exact ⟨_, h.addEdge a⟩
    | removeEdge r => exact ⟨_, h.removal hf _⟩
    | removeNode o r => exact ⟨_, h.removal hf _⟩
  | assign e hd tl => exact ⟨_, h.assign e hd tl⟩
  | refresh => exact ⟨_, h.refresh hf⟩

theorem EInv.run (as : List (EAct ι ν ε)) {g g₀ : Graph ι ν ε} {t : Two ι ν ε} (h : EInv g g₀ t) (hf : t.AllFit as) :
    ∃ g₁, EInv (eRun g as) g₁ (as.foldl Two.next t) := by
  induction as generalizing g g₀ t with
  | nil => exact ⟨_, h⟩
  | cons a as ih =>
    obtain ⟨g₁, h1⟩ := h.step a hf.1
    exact ih h1 hf.2

/-! ## Answers -/

theorem mapE_edge' {g : Graph ι ν ε} (h : Pile.Inv g.edges) (es : List ι) (E : List (Item ι Unit (EdgeData ι ε)))
    (hE : ∀ e ∈ E, e ∈ Pile.abs g.edges) (hp : es.Perm (E.map Item.id)) :
    ∃ l, mapE (edge g) es = .ok l ∧ l.Perm E := by
  have h1 := mapE_eq (edge g) g.edges.items.get? es (by
    intro e he
    obtain ⟨ed, hed, rfl⟩ := List.mem_map.1 (hp.mem_iff.1 he)
    have h1 := (Pile.mem_abs h ed).1 (hE ed hed)
    exact ⟨ed, edge_ok h1, h1⟩)
  refine ⟨_, h1, ?_⟩
  have h2 := hp.filterMap g.edges.items.get?
  have h3 : (E.map Item.id).filterMap g.edges.items.get? = E := by
    clear hp h1 h2
    induction E with
    | nil => rfl
    | cons e l ih =>
      simp only [List.map_cons, List.filterMap_cons, (Pile.mem_abs h e).1 (hE e (by simp))]
      rw [ih (fun x hx => hE x (by simp [hx]))]
  rw [h3] at h2
  exact h2

theorem EInv.among_perm {g g₀ : Graph ι ν ε} {t : Two ι ν ε} (h : EInv g g₀ t) (ids : List ι) (hn : ids.Nodup)
    (hs : ∀ u ∈ ids, u ∈ t.now.edges.map Item.id) : ids.Perm ((t.among ids).map Item.id) := by
  have hnd : (t.now.edges.map Item.id).Nodup := by rw [← h.now]; exact Pile.abs_nodup h.edges
  unfold Two.among
  rw [List.perm_ext_iff_of_nodup hn (List.Nodup.sublist (List.Sublist.map _ List.filter_sublist) hnd)]
  intro u
  constructor
  · intro hu
    obtain ⟨e, he, rfl⟩ := List.mem_map.1 (hs u hu)
    exact List.mem_map.2 ⟨e, List.mem_filter.2 ⟨he, by simpa using hu⟩, rfl⟩
  · intro hu
    obtain ⟨e, he, rfl⟩ := List.mem_map.1 hu
    simpa using (List.mem_filter.1 he).2

theorem EInv.filed_nodup {g g₀ : Graph ι ν ε} {t : Two ι ν ε} (h : EInv g g₀ t) : (t.filed.edges.map Item.id).Nodup := by
  rw [← h.old]; exact Pile.abs_nodup h.inv.edges

theorem EInv.outs_ok {g g₀ : Graph ι ν ε} {t : Two ι ν ε} (h : EInv g g₀ t) (o : SetOrder ι) (n : ι) :
    (o.out n (adj g.out n)).Perm ((t.among (t.outs n)).map Item.id) := by
  have h1 := adj_perm h.inv h.inv.out (fun e he => (h.inv.ends e.id e ((mem_abs_edge h.inv e).1 he)).1) n
  have h2 : Pile.abs g₀.edges = t.filed.edges := congrArg SG.edges h.old
  rw [h2] at h1
  rw [h.out]
  refine (o.out_perm n _).trans (h1.trans (h.among_perm _ ?_ ?_))
  · exact List.Nodup.sublist (List.Sublist.map _ List.filter_sublist) h.filed_nodup
  · intro u hu
    rw [h.ids]
    exact (List.Sublist.map _ List.filter_sublist).subset hu

theorem EInv.ins_ok {g g₀ : Graph ι ν ε} {t : Two ι ν ε} (h : EInv g g₀ t) (o : SetOrder ι) (n : ι) :
    (o.inn n (adj g.inn n)).Perm ((t.among (t.ins n)).map Item.id) := by
  have h1 := adj_perm h.inv h.inv.inn (fun e he => (h.inv.ends e.id e ((mem_abs_edge h.inv e).1 he)).2) n
  have h2 : Pile.abs g₀.edges = t.filed.edges := congrArg SG.edges h.old
  rw [h2] at h1
  rw [h.inn]
  refine (o.inn_perm n _).trans (h1.trans (h.among_perm _ ?_ ?_))
  · exact List.Nodup.sublist (List.Sublist.map _ List.filter_sublist) h.filed_nodup
  · intro u hu
    rw [h.ids]
    exact (List.Sublist.map _ List.filter_sublist).subset hu

theorem EInv.node_edges {g g₀ : Graph ι ν ε} {t : Two ι ν ε} (h : EInv g g₀ t) (o : SetOrder ι) (n : ι) :
    (∃ l, getNodeEdges o g (some n) .out = .ok l ∧ l.Perm (t.among (t.outs n))) ∧
    (∃ l, getNodeEdges o g (some n) .in_ = .ok l ∧ l.Perm (t.among (t.ins n))) := by
  have hsub : ∀ ids, ∀ e ∈ t.among ids, e ∈ Pile.abs g.edges := by
    intro ids e he; rw [h.now]; exact (List.mem_filter.1 he).1
  have h1 := mapE_edge' h.edges _ _ (hsub _) (h.outs_ok o n)
  have h2 := mapE_edge' h.edges _ _ (hsub _) (h.ins_ok o n)
  refine ⟨?_, ?_⟩
  · simpa [getNodeEdges] using h1
  · simpa [getNodeEdges] using h2

theorem mapE_error {α β : Type} (f : α → Except Exc β) (x : Exc) (l : List α) (h : ∀ a ∈ l, (∃ b, f a = .ok b) ∨ f a = .error x)
    (hx : ∃ a ∈ l, f a = .error x) : mapE f l = .error x := by
  induction l with
  | nil => obtain ⟨a, ha, _⟩ := hx; cases ha
  | cons a l ih =>
    rcases h a (by simp) with ⟨b, hb⟩ | hb
    · have : mapE f l = .error x := by
        apply ih (fun c hc => h c (by simp [hc]))
        obtain ⟨c, hc, he⟩ := hx
        rcases List.mem_cons.1 hc with rfl | hc
        · rw [hb] at he; cases he
        · exact ⟨c, hc, he⟩
      simp only [mapE, hb, this]
    · simp only [mapE, hb]

/-- The nodes at one end of the listed edges, as the edges are now. -/
theorem EInv.ends_ok {g g₀ : Graph ι ν ε} {t : Two ι ν ε} (h : EInv g g₀ t) (f : ι → Except Exc (Item ι Unit ν)) (sel : EdgeData ι ε → ι)
    (hf : ∀ e ed, g.edges.items.get? e = some ed → f e = node g (sel ed.data))
    (es : List ι) (E : List (Item ι Unit (EdgeData ι ε))) (hE : ∀ e ∈ E, e ∈ t.now.edges) (hp : es.Perm (E.map Item.id)) :
    ((∀ e ∈ E, t.now.IsNode (sel e.data)) → ∃ l, mapE f es = .ok l ∧ (∀ x ∈ l, x ∈ t.now.nodes) ∧ (l.map Item.id).Perm (E.map (fun e => sel e.data))) ∧
    (¬ (∀ e ∈ E, t.now.IsNode (sel e.data)) → mapE f es = .error .notFound) := by
  have hv : Pile.abs g.nodes = t.now.nodes := congrArg SG.nodes h.view_now
  have hni : Pile.Inv g.nodes := by rw [h.nodes]; exact h.inv.nodes
  have hN : ∀ n, t.now.IsNode n ↔ ∃ x, g.nodes.items.get? n = some x := by
    intro n
    unfold SG.IsNode
    rw [← hv, Pile.abs_ids hni, hni.mem_iff, ← Dict.get?_isSome_iff, Option.isSome_iff_exists]
  have hget : ∀ e ∈ E, g.edges.items.get? e.id = some e := fun e he => (Pile.mem_abs h.edges e).1 (by rw [h.now]; exact hE e he)
  constructor
  · intro hall
    let G : ι → Option (Item ι Unit ν) := fun e => (g.edges.items.get? e).bind (fun ed => g.nodes.items.get? (sel ed.data))
    have hG : ∀ e ∈ es, ∃ b, f e = .ok b ∧ G e = some b := by
      intro e he
      obtain ⟨ed, hed, rfl⟩ := List.mem_map.1 (hp.mem_iff.1 he)
      have h1 := hget ed hed
      obtain ⟨x, hx⟩ := (hN _).1 (hall ed hed)
      exact ⟨x, by rw [hf _ _ h1, node_ok hx], by simp [G, h1, hx]⟩
    refine ⟨_, mapE_eq f G es hG, ?_, ?_⟩
    · intro x hx
      obtain ⟨e, _, he⟩ := List.mem_filterMap.1 hx
      simp only [G, Option.bind_eq_some_iff] at he
      obtain ⟨ed, _, hx⟩ := he
      have hid := hni.ids _ _ hx
      rw [← hv]
      exact (Pile.mem_abs hni x).2 (by rw [hid]; exact hx)
    · have h2 : (es.filterMap G).Perm ((E.map Item.id).filterMap G) := hp.filterMap G
      refine (h2.map Item.id).trans ?_
      have h3 : ((E.map Item.id).filterMap G).map Item.id = E.map (fun e => sel e.data) := by
        clear hp h2 hG
        induction E with
        | nil => rfl
        | cons e E ih =>
          have he := hget e (by simp)
          obtain ⟨x, hx⟩ := (hN _).1 (hall e (by simp))
          have hGe : G e.id = some x := by simp [G, he, hx]
          simp only [List.map_cons, List.filterMap_cons, hGe]
          rw [ih (fun y hy => hE y (by simp [hy])) (fun y hy => hget y (by simp [hy])) (fun y hy => hall y (by simp [hy])), hni.ids _ _ hx]
      rw [h3]
  · intro hno
    apply mapE_error
    · intro e he
      obtain ⟨ed, hed, rfl⟩ := List.mem_map.1 (hp.mem_iff.1 he)
      rw [hf _ _ (hget ed hed)]
      cases hx : g.nodes.items.get? (sel ed.data) with
      | some x => exact Or.inl ⟨x, node_ok hx⟩
      | none => exact Or.inr (by simp [node, hx])
    · obtain ⟨e, he, hne⟩ : ∃ e ∈ E, ¬ t.now.IsNode (sel e.data) := by
        apply Classical.byContradiction
        intro hcon
        exact hno (fun e he => Classical.byContradiction fun q => hcon ⟨e, he, q⟩)
      refine ⟨e.id, hp.mem_iff.2 (List.mem_map.2 ⟨e, he, rfl⟩), ?_⟩
      rw [hf _ _ (hget e he)]
      cases hx : g.nodes.items.get? (sel e.data) with
      | some x => exact absurd ((hN _).2 ⟨x, hx⟩) hne
      | none => simp [node, hx]

/-! ## C294 -/

/-- C294 (partial: the answers go by the ends under which the edges were filed, and removals are only considered while these are the current ones). -/
theorem C294_answers_partial (as : List (EAct ι ν ε)) (hf : ({} : Two ι ν ε).AllFit as) (o : SetOrder ι) (n : ι) :
    Shows (eRun {} as) (Two.run as).now ∧
    (∃ l, getNodeEdges o (eRun {} as) (some n) .out = .ok l ∧ l.Perm ((Two.run as).among ((Two.run as).outs n))) ∧
    (∃ l, getNodeEdges o (eRun {} as) (some n) .in_ = .ok l ∧ l.Perm ((Two.run as).among ((Two.run as).ins n))) ∧
    ((∀ e ∈ (Two.run as).among ((Two.run as).outs n), (Two.run as).now.IsNode e.data.tail) →
      ∃ l, getSuccessors o (eRun {} as) (some n) = .ok l ∧ (∀ x ∈ l, x ∈ (Two.run as).now.nodes) ∧
        (l.map Item.id).Perm (((Two.run as).among ((Two.run as).outs n)).map (fun e => e.data.tail))) ∧
    (¬ (∀ e ∈ (Two.run as).among ((Two.run as).outs n), (Two.run as).now.IsNode e.data.tail) →
      getSuccessors o (eRun {} as) (some n) = .error .notFound) ∧
    ((∀ e ∈ (Two.run as).among ((Two.run as).ins n), (Two.run as).now.IsNode e.data.head) →
      ∃ l, getPredecessors o (eRun {} as) (some n) = .ok l ∧ (∀ x ∈ l, x ∈ (Two.run as).now.nodes) ∧
        (l.map Item.id).Perm (((Two.run as).among ((Two.run as).ins n)).map (fun e => e.data.head))) ∧
    (¬ (∀ e ∈ (Two.run as).among ((Two.run as).ins n), (Two.run as).now.IsNode e.data.head) →
      getPredecessors o (eRun {} as) (some n) = .error .notFound) := by
  obtain ⟨g₀, h⟩ := EInv.run as einv_empty hf
  have h' : EInv (eRun {} as) g₀ (Two.run as) := h
  have hne := h'.node_edges o n
  have hsub : ∀ ids, ∀ e ∈ (Two.run as).among ids, e ∈ (Two.run as).now.edges := fun ids e he => (List.mem_filter.1 he).1
  have hs := h'.ends_ok (tailNode (eRun {} as)) EdgeData.tail (by
    intro e ed he; simp only [tailNode, edge_ok he]) _ _ (hsub _) (h'.outs_ok o n)
  have hp := h'.ends_ok (headNode (eRun {} as)) EdgeData.head (by
    intro e ed he; simp only [headNode, edge_ok he]) _ _ (hsub _) (h'.ins_ok o n)
  refine ⟨?_, hne.1, hne.2, hs.1, hs.2, hp.1, hp.2⟩
  have hni : Pile.Inv (eRun {} as).nodes := by rw [h'.nodes]; exact h'.inv.nodes
  refine ⟨?_, ?_⟩
  · rw [Pile.iter_eq hni]; exact congrArg (fun s => Except.ok (SG.nodes s)) h'.view_now
  · rw [Pile.iter_eq h'.edges, h'.now]

/-- Every edge was filed under its current ends. -/
def Two.Clean (t : Two ι ν ε) : Prop :=
  ∀ e ∈ t.now.edges, ∀ e₀ ∈ t.filed.edges, e₀.id = e.id → e₀.data.head = e.data.head ∧ e₀.data.tail = e.data.tail

/-- The edges listed for a node are those whose current end it is. -/
def EdgesRight (o : SetOrder ι) (g : Graph ι ν ε) (s : SG ι ν ε) : Prop :=
  ∀ n, (∃ l, getNodeEdges o g (some n) .out = .ok l ∧ l.Perm (s.edges.filter (fun e => decide (e.data.head = n)))) ∧
    (∃ l, getNodeEdges o g (some n) .in_ = .ok l ∧ l.Perm (s.edges.filter (fun e => decide (e.data.tail = n))))

theorem EInv.mem_outs {g g₀ : Graph ι ν ε} {t : Two ι ν ε} (h : EInv g g₀ t) (hc : t.Clean) {e : Item ι Unit (EdgeData ι ε)} (he : e ∈ t.now.edges) (n : ι) :
    (e.id ∈ t.outs n ↔ e.data.head = n) ∧ (e.id ∈ t.ins n ↔ e.data.tail = n) := by
  have hid : e.id ∈ t.filed.edges.map Item.id := by rw [← h.ids]; exact List.mem_map.2 ⟨e, he, rfl⟩
  obtain ⟨e₀, h0, hi⟩ := List.mem_map.1 hid
  have := hc e he e₀ h0 hi
  refine ⟨⟨?_, ?_⟩, ⟨?_, ?_⟩⟩
  · intro hm
    obtain ⟨e₁, h1, hi1⟩ := List.mem_map.1 hm
    rw [List.mem_filter] at h1
    rw [← (hc e he e₁ h1.1 hi1).1]; simpa using h1.2
  · rintro rfl
    exact List.mem_map.2 ⟨e₀, List.mem_filter.2 ⟨h0, by simpa using this.1⟩, hi⟩
  · intro hm
    obtain ⟨e₁, h1, hi1⟩ := List.mem_map.1 hm
    rw [List.mem_filter] at h1
    rw [← (hc e he e₁ h1.1 hi1).2]; simpa using h1.2
  · rintro rfl
    exact List.mem_map.2 ⟨e₀, List.mem_filter.2 ⟨h0, by simpa using this.2⟩, hi⟩

/-- C294 (partial): the edges are listed for the right nodes exactly while each edge has the ends under which it was filed. -/
theorem C294_exact_partial (as : List (EAct ι ν ε)) (hf : ({} : Two ι ν ε).AllFit as) (o : SetOrder ι) :
    EdgesRight o (eRun {} as) (Two.run as).now ↔ (Two.run as).Clean := by
  obtain ⟨g₀, h⟩ := EInv.run as einv_empty hf
  have h' : EInv (eRun {} as) g₀ (Two.run as) := h
  constructor
  · intro hr e he e₀ h0 hi
    have hm1 : e ∈ (Two.run as).among ((Two.run as).outs e₀.data.head) :=
      List.mem_filter.2 ⟨he, decide_eq_true (List.mem_map.2 ⟨e₀, List.mem_filter.2 ⟨h0, by simp⟩, hi⟩)⟩
    have hm2 : e ∈ (Two.run as).among ((Two.run as).ins e₀.data.tail) :=
      List.mem_filter.2 ⟨he, decide_eq_true (List.mem_map.2 ⟨e₀, List.mem_filter.2 ⟨h0, by simp⟩, hi⟩)⟩
    obtain ⟨l, hl, hlp⟩ := (hr e₀.data.head).1
    obtain ⟨l', hl', hlp'⟩ := (h'.node_edges o e₀.data.head).1
    obtain ⟨m, hm, hmp⟩ := (hr e₀.data.tail).2
    obtain ⟨m', hm', hmp'⟩ := (h'.node_edges o e₀.data.tail).2
    rw [hl] at hl'; cases hl'
    rw [hm] at hm'; cases hm'
    have q1 := hlp.mem_iff.1 (hlp'.mem_iff.2 hm1)
    have q2 := hmp.mem_iff.1 (hmp'.mem_iff.2 hm2)
    rw [List.mem_filter] at q1 q2
    exact ⟨(by simpa using q1.2 : e.data.head = e₀.data.head).symm, (by simpa using q2.2 : e.data.tail = e₀.data.tail).symm⟩
  · intro hc n
    obtain ⟨⟨l, hl, hlp⟩, ⟨m, hm, hmp⟩⟩ := h'.node_edges o n
    have e1 : (Two.run as).among ((Two.run as).outs n) = (Two.run as).now.edges.filter (fun e => decide (e.data.head = n)) := by
      apply List.filter_congr
      intro e he
      simp only [(h'.mem_outs hc he n).1]
    have e2 : (Two.run as).among ((Two.run as).ins n) = (Two.run as).now.edges.filter (fun e => decide (e.data.tail = n)) := by
      apply List.filter_congr
      intro e he
      simp only [(h'.mem_outs hc he n).2]
    rw [e1] at hlp
    rw [e2] at hmp
    exact ⟨⟨l, hl, hlp⟩, ⟨m, hm, hmp⟩⟩

/-- C294 (partial): an assignment to a field of the graph repairs it: afterwards the graph answers as one to which its nodes and edges were added as they are now. -/
theorem C294_refresh_partial (as : List (EAct ι ν ε)) (hf : ({} : Two ι ν ε).AllFit as)
    (he : ∀ e ∈ (Two.run as).now.edges, (Two.run as).now.IsNode e.data.head ∧ (Two.run as).now.IsNode e.data.tail) (o : SetOrder ι) (n : ι) :
    Shows (eStep (eRun {} as) .refresh) (Two.run as).now ∧ EdgesRight o (eStep (eRun {} as) .refresh) (Two.run as).now ∧
    (∃ l, getSuccessors o (eStep (eRun {} as) .refresh) (some n) = .ok l ∧
      (l.map Item.id).Perm (((Two.run as).now.edges.filter (fun e => decide (e.data.head = n))).map (fun e => e.data.tail))) ∧
    (∃ l, getPredecessors o (eStep (eRun {} as) .refresh) (some n) = .ok l ∧
      (l.map Item.id).Perm (((Two.run as).now.edges.filter (fun e => decide (e.data.tail = n))).map (fun e => e.data.head))) ∧
    (∀ op, (step (eStep (eRun {} as) .refresh) op).2 = ((Two.run as).now.step op).map Prod.snd) := by
  obtain ⟨g₀, h⟩ := EInv.run as einv_empty hf
  have h' : EInv (eRun {} as) g₀ (Two.run as) := h
  have h2 : EInv (eStep (eRun {} as) .refresh) (eStep (eRun {} as) .refresh) ((Two.run as).next .refresh) := h'.refresh he
  obtain ⟨g1, g2⟩ := h2.toGInv rfl
  have hv : view (eStep (eRun {} as) .refresh) = (Two.run as).now := h2.view_now
  have ha : Pile.abs (eStep (eRun {} as) .refresh).edges = (Two.run as).now.edges := h2.now
  refine ⟨(shows_iff g1 _).2 hv.symm, ?_, ?_, ?_, ?_⟩
  · intro m
    have q1 := node_edges_ok g1 o m .out (by simp)
    have q2 := node_edges_ok g1 o m .in_ (by simp)
    rw [ha] at q1 q2
    refine ⟨?_, ?_⟩
    · simpa using q1
    · simpa using q2
  · obtain ⟨l, h1, _, h3⟩ := successors_ok g1 o n
    rw [ha] at h3; exact ⟨l, h1, h3⟩
  · obtain ⟨l, h1, _, h3⟩ := predecessors_ok g1 o n
    rw [ha] at h3; exact ⟨l, h1, h3⟩
  · intro op
    rw [(step_spec g1 g2 op).1, hv]

/-- Nodes 1, 2, 3 and the edge 10 from 1 to 2, which is then made to start at 3. -/
def repointed : List (EAct Nat Unit Unit) :=
  [.op (.addNode (some ⟨1, (), ()⟩)), .op (.addNode (some ⟨2, (), ()⟩)), .op (.addNode (some ⟨3, (), ()⟩)),
   .op (.addEdge (some ⟨10, (), ⟨1, 2, ()⟩⟩)), .assign 10 3 2]

/-- The hypotheses are met by a history that re-points an edge, adds another and then touches the graph. -/
example : ({} : Two Nat Unit Unit).AllFit (repointed ++ [.op (.addEdge (some ⟨11, (), ⟨3, 1, ()⟩⟩))]) ∧ ¬ (Two.run repointed).Clean := by
  refine ⟨⟨trivial, trivial, trivial, trivial, trivial, trivial, trivial⟩, ?_⟩
  intro h
  have := (h ⟨10, (), ⟨3, 2, ()⟩⟩ (by decide) ⟨10, (), ⟨1, 2, ()⟩⟩ (by decide) rfl).1
  exact absurd this (by decide)

/-- C294, refuted in full: the re-pointed edge is listed for its former node only; after `remove_edge` that node can neither be asked for its successors nor be removed. -/
theorem C294_violation :
    Pile.iter (eRun {} repointed).edges = .ok [⟨10, (), ⟨3, 2, ()⟩⟩] ∧
    (getNodeEdges SetOrder.id (eRun {} repointed) (some 3) .out).toOption = some [] ∧
    (getNodeEdges SetOrder.id (eRun {} repointed) (some 1) .out).toOption = some [⟨10, (), ⟨3, 2, ()⟩⟩] ∧
    (removeEdge (eRun {} repointed) (some 10)).2.toOption = some ⟨10, (), ⟨3, 2, ()⟩⟩ ∧
    getSuccessors SetOrder.id (removeEdge (eRun {} repointed) (some 10)).1 (some 1) = .error .notFound ∧
    (removeNode SetOrder.id (removeEdge (eRun {} repointed) (some 10)).1 (some 1)).2 = .error .notFound := by
  refine ⟨rfl, rfl, rfl, rfl, rfl, rfl⟩

end Verif.Graph
