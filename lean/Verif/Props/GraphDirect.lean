import Verif.Model.GraphDirect
import Verif.Props.EdgeAssign

/-!
# C301 — calls on the piles of a graph

Specification: what the user sees (`Shows`), and the answers that fit it (`Agrees`).
-/

set_option linter.unusedSectionVars false
set_option linter.unusedSimpArgs false
set_option linter.unusedVariables false

namespace Verif.Graph

open Digraph

variable {ι ν ε : Type} [DecidableEq ι]

/-- The answers of the graph about its structure are those for the given nodes and edges. -/
structure Agrees (g : Graph ι ν ε) (s : SG ι ν ε) : Prop where
  outs : ∀ o n, ∃ l, getNodeEdges o g (some n) .out = .ok l ∧ l.Perm (s.edges.filter (fun e => decide (e.data.head = n)))
  ins : ∀ o n, ∃ l, getNodeEdges o g (some n) .in_ = .ok l ∧ l.Perm (s.edges.filter (fun e => decide (e.data.tail = n)))
  succs : ∀ o n, ∃ l, getSuccessors o g (some n) = .ok l ∧ (∀ x ∈ l, x ∈ s.nodes) ∧
    (l.map Item.id).Perm ((s.edges.filter (fun e => decide (e.data.head = n))).map (fun e => e.data.tail))
  preds : ∀ o n, ∃ l, getPredecessors o g (some n) = .ok l ∧ (∀ x ∈ l, x ∈ s.nodes) ∧
    (l.map Item.id).Perm ((s.edges.filter (fun e => decide (e.data.tail = n))).map (fun e => e.data.head))
  heads : ∃ l, getHeads g = .ok l ∧ l.Perm (s.nodes.filter (fun x => decide (∀ e ∈ s.edges, e.data.tail ≠ x.id)))
  tails : ∃ l, getTails g = .ok l ∧ l.Perm (s.nodes.filter (fun x => decide (∀ e ∈ s.edges, e.data.head ≠ x.id)))

/-- The same node ids, and the same edge ids with the same ends. -/
structure SameShape (s s' : SG ι ν ε) : Prop where
  nodes : ∀ n, s.IsNode n ↔ s'.IsNode n
  edges : ∀ e h t, (∃ x ∈ s.edges, x.id = e ∧ x.data.head = h ∧ x.data.tail = t) ↔ (∃ x ∈ s'.edges, x.id = e ∧ x.data.head = h ∧ x.data.tail = t)

/-- Graphs that come from an empty graph by calls of its methods, and by calls on its piles followed by an assignment to a field of the graph at a moment when every edge connects two nodes. -/
inductive Tended : Graph ι ν ε → Prop
  | empty : Tended {}
  | op {g} (h : Tended g) (o : Op ι ν ε) : Tended (step g o).1
  | mended {g} (h : Tended g) (ds : List (DAct ι ν ε)) (s : SG ι ν ε) (hs : Shows (dRun g ds) s)
      (he : ∀ e ∈ s.edges, s.IsNode e.data.head ∧ s.IsNode e.data.tail) : Tended (refresh (dRun g ds))

/-! ## Invariants -/

structure Piles (g g' : Graph ι ν ε) : Prop where
  nodes : Pile.Inv g'.nodes
  edges : Pile.Inv g'.edges
  out : g'.out = g.out
  inn : g'.inn = g.inn
  cfg : Cfg g'

theorem Piles.dStep {g g' : Graph ι ν ε} (h : Piles g g') (d : DAct ι ν ε) : Piles g (dStep g' d) := by
  cases d with
  | node o =>
    have := Pile.step_refines anySub h.nodes o
    exact ⟨this.1, h.edges, h.out, h.inn, ⟨this.2.2.1.trans h.cfg.nt, this.2.2.2.1.trans h.cfg.ns, this.2.2.2.2.trans h.cfg.np, h.cfg.et, h.cfg.es, h.cfg.ep⟩⟩
  | edge o =>
    have := Pile.step_refines anySub h.edges o
    exact ⟨h.nodes, this.1, h.out, h.inn, ⟨h.cfg.nt, h.cfg.ns, h.cfg.np, this.2.2.1.trans h.cfg.et, this.2.2.2.1.trans h.cfg.es, this.2.2.2.2.trans h.cfg.ep⟩⟩

theorem Piles.dRun (ds : List (DAct ι ν ε)) {g g' : Graph ι ν ε} (h : Piles g g') : Piles g (dRun g' ds) := by
  induction ds generalizing g' with
  | nil => exact h
  | cons d ds ih => exact ih (h.dStep d)

theorem piles (ds : List (DAct ι ν ε)) {g : Graph ι ν ε} (h : GInv g) (hc : Cfg g) : Piles g (dRun g ds) :=
  Piles.dRun ds ⟨h.nodes, h.edges, rfl, rfl, hc⟩

theorem shows_iff' {g : Graph ι ν ε} (hn : Pile.Inv g.nodes) (he : Pile.Inv g.edges) (s : SG ι ν ε) : Shows g s ↔ s = view g := by
  unfold Shows
  rw [Pile.iter_eq hn, Pile.iter_eq he]
  cases s
  simp only [Except.ok.injEq, view, SG.mk.injEq]
  exact ⟨fun h => ⟨h.1.symm, h.2.symm⟩, fun h => ⟨h.1.symm, h.2.symm⟩⟩

theorem Tended.ok {g : Graph ι ν ε} (h : Tended g) : GInv g ∧ Cfg g := by
  induction h with
  | empty => exact ⟨ginv_empty, cfg_empty⟩
  | op h o ih => exact ⟨ih.1.step o, ih.2.step ih.1 o⟩
  | mended h ds s hs he ih =>
    have hp := piles ds ih.1 ih.2
    rw [shows_iff' hp.nodes hp.edges] at hs
    subst hs
    obtain ⟨g', h1, h2, h3, h4⟩ := mk'_ginv hp.nodes hp.edges (by
      intro x hx
      have := he x hx
      unfold SG.IsNode view at this
      rw [Pile.abs_ids hp.nodes] at this
      exact this)
    unfold refresh
    rw [h1]
    refine ⟨h4, ⟨?_, ?_, ?_, ?_, ?_, ?_⟩⟩
    · rw [h2]; exact hp.cfg.nt
    · rw [h2]; exact hp.cfg.ns
    · rw [h2]; exact hp.cfg.np
    · rw [h3]; exact hp.cfg.et
    · rw [h3]; exact hp.cfg.es
    · rw [h3]; exact hp.cfg.ep

theorem agrees_view {g : Graph ι ν ε} (h : GInv g) : Agrees g (view g) := by
  refine ⟨?_, ?_, fun o n => successors_ok h o n, fun o n => predecessors_ok h o n, ⟨_, emptyKeys_ok h h.inn (fun e he => (h.ends e.id e ((mem_abs_edge h e).1 he)).2), .refl _⟩,
    ⟨_, emptyKeys_ok h h.out (fun e he => (h.ends e.id e ((mem_abs_edge h e).1 he)).1), .refl _⟩⟩
  · intro o n
    have := node_edges_ok h o n .out (by simp)
    simp only [true_or, if_true, reduceCtorEq, or_self, if_false, List.nil_append] at this
    exact this
  · intro o n
    have := node_edges_ok h o n .in_ (by simp)
    simp only [true_or, if_true, reduceCtorEq, or_self, if_false, List.append_nil] at this
    exact this

theorem mapE_inv {α β : Type} (f : α → Except Exc β) (es : List α) (l : List β) (h : mapE f es = .ok l) :
    (∀ e ∈ es, ∃ b ∈ l, f e = .ok b) ∧ (∀ b ∈ l, ∃ e ∈ es, f e = .ok b) := by
  induction es generalizing l with
  | nil => simp only [mapE] at h; cases h; exact ⟨(fun e he => nomatch he), (fun b hb => nomatch hb)⟩
  | cons a es ih =>
    cases hb : f a with
    | error x => simp only [mapE, hb] at h; cases h
    | ok b =>
      cases hm : mapE f es with
      | error x => simp only [mapE, hb, hm] at h; cases h
      | ok bs =>
        simp only [mapE, hb, hm] at h
        cases h
        have := ih bs hm
        constructor
        · intro e he
          rcases List.mem_cons.1 he with rfl | he
          · exact ⟨b, by simp, hb⟩
          · obtain ⟨c, hc, hf⟩ := this.1 e he
            exact ⟨c, by simp [hc], hf⟩
        · intro c hc
          rcases List.mem_cons.1 hc with rfl | hc
          · exact ⟨a, by simp, hb⟩
          · obtain ⟨e, he, hf⟩ := this.2 c hc
            exact ⟨e, by simp [he], hf⟩

theorem edge_inv {g : Graph ι ν ε} {e : ι} {x : Item ι Unit (EdgeData ι ε)} (h : edge g e = .ok x) : g.edges.items.get? e = some x := by
  unfold edge at h
  cases hq : g.edges.items.get? e with
  | none => rw [hq] at h; cases h
  | some y => rw [hq] at h; cases h; rfl

theorem node_inv {g : Graph ι ν ε} {n : ι} {x : Item ι Unit ν} (h : node g n = .ok x) : g.nodes.items.get? n = some x := by
  unfold node at h
  cases hq : g.nodes.items.get? n with
  | none => rw [hq] at h; cases h
  | some y => rw [hq] at h; cases h; rfl

theorem mem_adj {g : Graph ι ν ε} (h : GInv g) {sel : EdgeData ι ε → ι} {d : Dict ι (List ι)} (ha : AdjOK sel d g.nodes.order g.edges.items)
    (hs : ∀ e ed, g.edges.items.get? e = some ed → sel ed.data ∈ g.nodes.order) (n e : ι) :
    e ∈ adj d n ↔ ∃ ed, g.edges.items.get? e = some ed ∧ sel ed.data = n := by
  unfold adj
  cases hl : d.get? n with
  | some l => simpa [hl] using ha.spec n l hl e
  | none =>
    simp only [Option.getD_none, List.not_mem_nil, false_iff]
    rintro ⟨ed, h1, h2⟩
    obtain ⟨l, h3⟩ := ha.get (hs e ed h1)
    rw [h2, hl] at h3
    cases h3

/-- One direction of listing edges by an end: the listed ids are those filed, and the items found must have that end. -/
theorem filed_iff {g g' : Graph ι ν ε} (h : GInv g) (he : Pile.Inv g'.edges) {sel : EdgeData ι ε → ι} {d : Dict ι (List ι)} (ha : AdjOK sel d g.nodes.order g.edges.items)
    (hs : ∀ e ed, g.edges.items.get? e = some ed → sel ed.data ∈ g.nodes.order) (perm : ι → List ι → List ι) (hp : ∀ n l, (perm n l).Perm l)
    (hq : ∀ n, ∃ l, mapE (edge g') (perm n (adj d n)) = .ok l ∧ l.Perm ((Pile.abs g'.edges).filter (fun e => decide (sel e.data = n)))) (e n : ι) :
    (∃ ed, g.edges.items.get? e = some ed ∧ sel ed.data = n) ↔ (∃ ed, g'.edges.items.get? e = some ed ∧ sel ed.data = n) := by
  obtain ⟨l, h1, h2⟩ := hq n
  obtain ⟨i1, i2⟩ := mapE_inv _ _ _ h1
  rw [← mem_adj h ha hs]
  constructor
  · intro hm
    obtain ⟨b, hb, hf⟩ := i1 e ((hp n _).mem_iff.2 hm)
    have := List.mem_filter.1 (h2.mem_iff.1 hb)
    exact ⟨b, edge_inv hf, by simpa using this.2⟩
  · rintro ⟨ed, hed, hsel⟩
    have hid := he.ids _ _ hed
    have : ed ∈ l := h2.mem_iff.2 (List.mem_filter.2 ⟨(Pile.mem_abs he ed).2 (by rw [hid]; exact hed), by simpa using hsel⟩)
    obtain ⟨u, hu, hf⟩ := i2 ed this
    have h3 := edge_inv hf
    have : u = e := by rw [← he.ids _ _ h3, hid]
    rw [← this]
    exact (hp n _).mem_iff.1 hu

theorem mem_edges_iff {g : Graph ι ν ε} (he : Pile.Inv g.edges) (e h t : ι) :
    (∃ x ∈ (view g).edges, x.id = e ∧ x.data.head = h ∧ x.data.tail = t) ↔ ∃ ed, g.edges.items.get? e = some ed ∧ ed.data.head = h ∧ ed.data.tail = t := by
  constructor
  · rintro ⟨x, hx, rfl, h1, h2⟩
    exact ⟨x, (Pile.mem_abs he x).1 hx, h1, h2⟩
  · rintro ⟨x, hx, h1, h2⟩
    have hid := he.ids _ _ hx
    exact ⟨x, (Pile.mem_abs he x).2 (by rw [hid]; exact hx), hid, h1, h2⟩

theorem mem_nodes_iff {g : Graph ι ν ε} (hn : Pile.Inv g.nodes) (n : ι) : (view g).IsNode n ↔ ∃ x, g.nodes.items.get? n = some x := by
  unfold SG.IsNode view
  rw [Pile.abs_ids hn, hn.mem_iff, ← Dict.get?_isSome_iff, Option.isSome_iff_exists]

theorem shape_of_agrees {g g' : Graph ι ν ε} (h : GInv g) (hp : Piles g g') (ha : Agrees g' (view g')) : SameShape (view g') (view g) := by
  have hO := filed_iff (g' := g') h hp.edges h.out (fun e ed q => (h.ends e ed q).1) (fun n l => l) (fun n l => .refl _) (by
    intro n
    obtain ⟨l, h1, h2⟩ := ha.outs .id n
    refine ⟨l, ?_, h2⟩
    rw [← h1, ← hp.out]
    simp [getNodeEdges, SetOrder.id])
  have hI := filed_iff (g' := g') h hp.edges h.inn (fun e ed q => (h.ends e ed q).2) (fun n l => l) (fun n l => .refl _) (by
    intro n
    obtain ⟨l, h1, h2⟩ := ha.ins .id n
    refine ⟨l, ?_, h2⟩
    rw [← h1, ← hp.inn]
    simp [getNodeEdges, SetOrder.id])
  have hE : ∀ e hd tl, (∃ ed, g'.edges.items.get? e = some ed ∧ ed.data.head = hd ∧ ed.data.tail = tl) ↔
      ∃ ed, g.edges.items.get? e = some ed ∧ ed.data.head = hd ∧ ed.data.tail = tl := by
    intro e hd tl
    constructor
    · rintro ⟨ed, h1, h2, h3⟩
      obtain ⟨a, q1, q2⟩ := (hO e hd).2 ⟨ed, h1, h2⟩
      obtain ⟨b, r1, r2⟩ := (hI e tl).2 ⟨ed, h1, h3⟩
      rw [q1] at r1; cases r1
      exact ⟨a, q1, q2, r2⟩
    · rintro ⟨ed, h1, h2, h3⟩
      obtain ⟨a, q1, q2⟩ := (hO e hd).1 ⟨ed, h1, h2⟩
      obtain ⟨b, r1, r2⟩ := (hI e tl).1 ⟨ed, h1, h3⟩
      rw [q1] at r1; cases r1
      exact ⟨a, q1, q2, r2⟩
  refine ⟨?_, ?_⟩
  · intro n
    rw [mem_nodes_iff hp.nodes, mem_nodes_iff h.nodes]
    constructor
    · rintro ⟨x, hx⟩
      have hid := hp.nodes.ids _ _ hx
      have hxm : x ∈ (view g').nodes := (Pile.mem_abs hp.nodes x).2 (by rw [hid]; exact hx)
      by_cases hin : ∀ e ∈ (view g').edges, e.data.tail ≠ x.id
      · obtain ⟨l, h1, h2⟩ := ha.heads
        have : x ∈ l := h2.mem_iff.2 (List.mem_filter.2 ⟨hxm, by simpa using hin⟩)
        obtain ⟨i1, i2⟩ := mapE_inv _ _ _ h1
        obtain ⟨k, hk, hf⟩ := i2 x this
        have hkx : k = n := by rw [← hp.nodes.ids _ _ (node_inv hf), hid]
        have hkk : k ∈ g'.inn.keys := by
          unfold emptyKeys at hk
          obtain ⟨kv, hkv, rfl⟩ := List.mem_map.1 hk
          exact List.mem_map.2 ⟨kv, (List.mem_filter.1 hkv).1, rfl⟩
        rw [hp.inn, h.inn.keys, hkx] at hkk
        exact h.node_get hkk
      · have : ∃ e ∈ (view g').edges, e.data.tail = x.id := by
          apply Classical.byContradiction
          intro q
          exact hin (fun e he hq => q ⟨e, he, hq⟩)
        obtain ⟨e, he, hte⟩ := this
        obtain ⟨ed, q1, q2⟩ := (hI e.id n).2 ⟨e, (Pile.mem_abs hp.edges e).1 he, by rw [hte, hid]⟩
        exact h.node_get (q2 ▸ (h.ends _ _ q1).2)
    · rintro ⟨x, hx⟩
      have hno : n ∈ g.nodes.order := (h.nodes.mem_iff n).2 (Dict.mem_keys_of_get? hx)
      obtain ⟨li, hli⟩ := h.inn.get hno
      cases li with
      | nil =>
        obtain ⟨l, h1, h2⟩ := ha.heads
        obtain ⟨i1, i2⟩ := mapE_inv _ _ _ h1
        have hm : n ∈ emptyKeys g'.inn := by
          unfold emptyKeys
          have hwf : g.inn.WF := by unfold Dict.WF; rw [h.inn.keys]; exact h.nodes.nodup
          refine List.mem_map.2 ⟨(n, []), List.mem_filter.2 ⟨?_, rfl⟩, rfl⟩
          rw [hp.inn]
          exact (Dict.get?_iff_mem hwf n []).1 hli
        obtain ⟨b, _, hf⟩ := i1 n hm
        exact ⟨b, node_inv hf⟩
      | cons e es =>
        obtain ⟨ed, q1, q2⟩ := (h.inn.spec n _ hli e).1 (by simp)
        obtain ⟨ed', r1, r2, r3⟩ := (hE e ed.data.head n).2 ⟨ed, q1, rfl, q2⟩
        obtain ⟨l, h1, h2, _⟩ := ha.succs .id ed.data.head
        obtain ⟨i1, i2⟩ := mapE_inv _ _ _ h1
        have hm : e ∈ adj g'.out ed.data.head := by
          rw [hp.out]
          exact (mem_adj h h.out (fun e ed q => (h.ends e ed q).1) _ _).2 ⟨ed, q1, rfl⟩
        obtain ⟨b, _, hf⟩ := i1 e hm
        simp only [tailNode, edge_ok r1] at hf
        rw [r3] at hf
        exact ⟨b, node_inv hf⟩
  · intro e hd tl
    rw [mem_edges_iff hp.edges, mem_edges_iff h.edges]
    exact hE e hd tl

theorem agrees_of_shape {g g' : Graph ι ν ε} (h : GInv g) (hp : Piles g g') (hs : SameShape (view g') (view g)) : Agrees g' (view g') := by
  let q : Graph ι ν ε := { g' with nodes := { g'.nodes with order := g.nodes.order } }
  have hord : ∀ n, n ∈ g.nodes.order ↔ n ∈ g'.nodes.order := by
    intro n
    have := hs.nodes n
    unfold SG.IsNode view at this
    rw [Pile.abs_ids hp.nodes, Pile.abs_ids h.nodes] at this
    exact this.symm
  have hE : ∀ e hd tl, (∃ ed, g'.edges.items.get? e = some ed ∧ ed.data.head = hd ∧ ed.data.tail = tl) ↔
      ∃ ed, g.edges.items.get? e = some ed ∧ ed.data.head = hd ∧ ed.data.tail = tl := by
    intro e hd tl
    rw [← mem_edges_iff hp.edges, ← mem_edges_iff h.edges]
    exact hs.edges e hd tl
  have hperm : g.nodes.order.Perm g'.nodes.order := (List.perm_ext_iff_of_nodup h.nodes.nodup hp.nodes.nodup).2 hord
  have hq : GInv q := by
    refine ⟨⟨hp.nodes.wf, h.nodes.nodup, fun u => (hord u).trans (hp.nodes.mem_iff u), hp.nodes.ids⟩, hp.edges, ?_, ?_, ?_⟩
    · show AdjOK EdgeData.head g'.out g.nodes.order g'.edges.items
      rw [hp.out]
      refine ⟨h.out.keys, h.out.nodup, ?_⟩
      intro n l hl e
      rw [h.out.spec n l hl e]
      constructor
      · rintro ⟨ed, h1, h2⟩
        obtain ⟨ed', r1, r2, _⟩ := (hE e n ed.data.tail).2 ⟨ed, h1, h2, rfl⟩
        exact ⟨ed', r1, r2⟩
      · rintro ⟨ed, h1, h2⟩
        obtain ⟨ed', r1, r2, _⟩ := (hE e n ed.data.tail).1 ⟨ed, h1, h2, rfl⟩
        exact ⟨ed', r1, r2⟩
    · show AdjOK EdgeData.tail g'.inn g.nodes.order g'.edges.items
      rw [hp.inn]
      refine ⟨h.inn.keys, h.inn.nodup, ?_⟩
      intro n l hl e
      rw [h.inn.spec n l hl e]
      constructor
      · rintro ⟨ed, h1, h2⟩
        obtain ⟨ed', r1, _, r2⟩ := (hE e ed.data.head n).2 ⟨ed, h1, rfl, h2⟩
        exact ⟨ed', r1, r2⟩
      · rintro ⟨ed, h1, h2⟩
        obtain ⟨ed', r1, _, r2⟩ := (hE e ed.data.head n).1 ⟨ed, h1, rfl, h2⟩
        exact ⟨ed', r1, r2⟩
    · intro e ed he
      obtain ⟨ed', r1, r2, r3⟩ := (hE e _ _).1 ⟨ed, he, rfl, rfl⟩
      have := h.ends e ed' r1
      rw [r2, r3] at this
      exact this
  have hab : (Pile.abs q.nodes).Perm (Pile.abs g'.nodes) := hperm.filterMap _
  have ha := agrees_view hq
  refine ⟨ha.outs, ha.ins, ?_, ?_, ?_, ?_⟩
  · intro o n
    obtain ⟨l, h1, h2, h3⟩ := ha.succs o n
    exact ⟨l, h1, fun x hx => hab.mem_iff.1 (h2 x hx), h3⟩
  · intro o n
    obtain ⟨l, h1, h2, h3⟩ := ha.preds o n
    exact ⟨l, h1, fun x hx => hab.mem_iff.1 (h2 x hx), h3⟩
  · obtain ⟨l, h1, h2⟩ := ha.heads
    exact ⟨l, h1, h2.trans (hab.filter _)⟩
  · obtain ⟨l, h1, h2⟩ := ha.tails
    exact ⟨l, h1, h2.trans (hab.filter _)⟩

/-! ## C301 -/

/-- C301 (partial): after calls on the piles of a graph, its answers fit what it holds exactly if it holds the same node ids and the same edges with the same ends as before these calls. -/
theorem C301_exact_partial {g : Graph ι ν ε} (h : Tended g) (ds : List (DAct ι ν ε)) (s s' : SG ι ν ε) (hs : Shows g s) (hs' : Shows (dRun g ds) s') :
    Agrees (dRun g ds) s' ↔ SameShape s' s := by
  obtain ⟨hi, hc⟩ := h.ok
  have hp := piles ds hi hc
  rw [shows_iff hi] at hs
  rw [shows_iff' hp.nodes hp.edges] at hs'
  subst hs; subst hs'
  exact ⟨shape_of_agrees hi hp, agrees_of_shape hi hp⟩

/-- C301 (partial): calls of the methods, and calls on the piles followed by an assignment to a field of the graph while every edge connects two nodes, leave a graph whose answers fit
what it holds and whose methods do what they should. -/
theorem C301_kept_partial {g : Graph ι ν ε} (h : Tended g) :
    ∃ s, Shows g s ∧ Agrees g s ∧ (∀ e ∈ s.edges, s.IsNode e.data.head ∧ s.IsNode e.data.tail) ∧
      ∀ op, (step g op).2 = (s.step op).map Prod.snd ∧ Shows (step g op).1 (s.next op) := by
  obtain ⟨hi, hc⟩ := h.ok
  refine ⟨view g, (shows_iff hi _).2 rfl, agrees_view hi, ?_, ?_⟩
  · intro e he
    rw [isNode_iff hi, isNode_iff hi]
    exact hi.ends e.id e ((mem_abs_edge hi e).1 he)
  · intro op
    have := step_spec hi hc op
    exact ⟨this.1, (shows_iff (hi.step op) _).2 this.2.symm⟩

/-- What calls on the piles do to what the graph holds: each acts on its own list as on an ordered map (every item is allowed). -/
def shown (s : SG ι ν ε) : List (DAct ι ν ε) → SG ι ν ε
  | [] => s
  | .node o :: ds => shown { s with nodes := (OMap.step (fun _ => true) s.nodes o).1 } ds
  | .edge o :: ds => shown { s with edges := (OMap.step (fun _ => true) s.edges o).1 } ds

theorem dRun_view (ds : List (DAct ι ν ε)) {g g' : Graph ι ν ε} (h : Piles g g') : view (dRun g' ds) = shown (view g') ds := by
  induction ds generalizing g' with
  | nil => rfl
  | cons d ds ih =>
    have hv : ∀ {δ : Type}, Pile.validType (ι := ι) (δ := δ) anySub (some [()]) false = fun _ => true := fun {δ} => funext valid_any
    have h1 := ih (h.dStep d)
    show view (dRun (dStep g' d) ds) = _
    rw [h1]
    cases d with
    | node o =>
      have := (Pile.step_refines anySub h.nodes o).2.1
      rw [h.cfg.nt, h.cfg.ns, hv] at this
      have h2 : Pile.abs (Pile.step anySub g'.nodes o).1 = _ := congrArg Prod.fst this
      simp only [dStep, shown, view, h2]
    | edge o =>
      have := (Pile.step_refines anySub h.edges o).2.1
      rw [h.cfg.et, h.cfg.es, hv] at this
      have h2 : Pile.abs (Pile.step anySub g'.edges o).1 = _ := congrArg Prod.fst this
      simp only [dStep, shown, view, h2]

/-- C301 (partial): the piles themselves do what they should: the graph holds what the calls did to each of the two lists. -/
theorem C301_holds_partial {g : Graph ι ν ε} (h : Tended g) (ds : List (DAct ι ν ε)) (s : SG ι ν ε) (hs : Shows g s) : Shows (dRun g ds) (shown s ds) := by
  obtain ⟨hi, hc⟩ := h.ok
  have hp := piles ds hi hc
  rw [shows_iff hi] at hs
  subst hs
  exact (shows_iff' hp.nodes hp.edges _).2 (dRun_view ds ⟨hi.nodes, hi.edges, rfl, rfl, hc⟩).symm

/-- Nodes 1, 2 and the edge 10 from 1 to 2. -/
def arrow : List (Op Nat Unit Unit) := [.addNode (some ⟨1, (), ()⟩), .addNode (some ⟨2, (), ()⟩), .addEdge (some ⟨10, (), ⟨1, 2, ()⟩⟩)]

theorem arrow_tended : Tended (run ({} : Graph Nat Unit Unit) arrow) := .op (.op (.op .empty _) _) _

/-- A node that is taken out and put back at another place, and an edge replaced by one with the same ends: same shape, other lists. -/
example : Shows (dRun (run {} arrow) [.node (.remove (some 1)), .node (.add (some ⟨1, (), ()⟩)), .edge (.update (some ⟨10, (), ⟨1, 2, ()⟩⟩))])
    ⟨[⟨2, (), ()⟩, ⟨1, (), ()⟩], [⟨10, (), ⟨1, 2, ()⟩⟩]⟩ := ⟨rfl, rfl⟩

/-- An edge added to the pile, then an assignment to a field: the graph is tended again. -/
example : Tended (refresh (dRun (run {} arrow) [.edge (.add (some ⟨11, (), ⟨2, 1, ()⟩⟩))])) := by
  refine .mended arrow_tended _ ⟨[⟨1, (), ()⟩, ⟨2, (), ()⟩], [⟨10, (), ⟨1, 2, ()⟩⟩, ⟨11, (), ⟨2, 1, ()⟩⟩]⟩ ⟨rfl, rfl⟩ ?_
  decide

/-- C301, refuted in full: an edge added to the pile of edges closes a cycle that the graph does not see; a node taken from the pile of nodes leaves an edge to nowhere, on which the queries raise; to a
node added to the pile of nodes no edge can be added: the call stores the edge and raises `KeyError`. -/
theorem C301_violation :
    (Pile.contains (dRun (run {} arrow) [.edge (.add (some ⟨11, (), ⟨2, 1, ()⟩⟩))]).edges (some 11) = true ∧
      (getSuccessors .id (dRun (run {} arrow) [.edge (.add (some ⟨11, (), ⟨2, 1, ()⟩⟩))]) (some 2)).toOption = some [] ∧
      (isAcyclic .id (dRun (run {} arrow) [.edge (.add (some ⟨11, (), ⟨2, 1, ()⟩⟩))]) 100).toOption = some true) ∧
    (Pile.contains (dRun (run {} arrow) [.node (.remove (some 2))]).edges (some 10) = true ∧
      getSuccessors .id (dRun (run {} arrow) [.node (.remove (some 2))]) (some 1) = .error .notFound ∧
      isAcyclic .id (dRun (run {} arrow) [.node (.remove (some 2))]) 100 = .error .keyError) ∧
    ((step (dRun (run {} arrow) [.node (.add (some ⟨3, (), ()⟩))]) (.addEdge (some ⟨11, (), ⟨3, 1, ()⟩⟩))).2.toOption.isNone = true ∧
      Pile.contains (step (dRun (run {} arrow) [.node (.add (some ⟨3, (), ()⟩))]) (.addEdge (some ⟨11, (), ⟨3, 1, ()⟩⟩))).1.edges (some 11) = true) := by
  refine ⟨⟨rfl, rfl, rfl⟩, ⟨rfl, rfl, rfl⟩, rfl, rfl⟩

end Verif.Graph
