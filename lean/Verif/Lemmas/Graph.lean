import Verif.Lemmas.Pile
import Verif.Model.Graph

/-! # Representation invariant of `Graph` -/

set_option linter.unusedSectionVars false
set_option linter.unusedSimpArgs false

namespace Verif.Graph

variable {ι ν ε : Type} [DecidableEq ι]

/-- The adjacency dict `d` has one entry per node and lists exactly the edges whose selected end is that node. -/
structure AdjOK (sel : EdgeData ι ε → ι) (d : Dict ι (List ι)) (ns : List ι)
    (es : Dict ι (Item ι Unit (EdgeData ι ε))) : Prop where
  keys : d.keys = ns
  nodup : ∀ n l, d.get? n = some l → l.Nodup
  spec : ∀ n l, d.get? n = some l → ∀ e, e ∈ l ↔ ∃ ed, es.get? e = some ed ∧ sel ed.data = n

theorem AdjOK.get {sel : EdgeData ι ε → ι} {d : Dict ι (List ι)} {ns : List ι} {es : Dict ι (Item ι Unit (EdgeData ι ε))}
    (h : AdjOK sel d ns es) {n : ι} (hn : n ∈ ns) : ∃ l, d.get? n = some l := by
  rw [← h.keys] at hn
  exact Option.isSome_iff_exists.1 ((Dict.get?_isSome_iff _ _).2 hn)

theorem AdjOK.addNode {sel : EdgeData ι ε → ι} {d : Dict ι (List ι)} {ns : List ι}
    {es : Dict ι (Item ι Unit (EdgeData ι ε))} (h : AdjOK sel d ns es) {n : ι} (hn : n ∉ ns)
    (hno : ∀ e ed, es.get? e = some ed → sel ed.data ≠ n) : AdjOK sel (d.set n []) (ns ++ [n]) es := by
  constructor
  · rw [Dict.keys_set, h.keys, if_neg hn]
  · intro m l hm
    rw [Dict.get?_set] at hm
    split at hm
    · cases hm; exact List.nodup_nil
    · exact h.nodup m l hm
  · intro m l hm e
    rw [Dict.get?_set] at hm
    split at hm
    · next heq =>
      cases hm
      subst heq
      simp only [List.not_mem_nil, false_iff, not_exists, not_and]
      exact fun ed hed => hno e ed hed
    · exact h.spec m l hm e

theorem AdjOK.addEdge {sel : EdgeData ι ε → ι} {d : Dict ι (List ι)} {ns : List ι}
    {es : Dict ι (Item ι Unit (EdgeData ι ε))} (h : AdjOK sel d ns es) {x : Item ι Unit (EdgeData ι ε)} {l : List ι}
    (hx : x.id ∉ es.keys) (hl : d.get? (sel x.data) = some l) :
    AdjOK sel (d.set (sel x.data) (setAdd l x.id)) ns (es.set x.id x) := by
  have hxl : x.id ∉ l := by
    intro hm
    obtain ⟨ed, hed, _⟩ := (h.spec _ _ hl x.id).1 hm
    exact hx (Dict.mem_keys_of_get? hed)
  constructor
  · rw [Dict.keys_set_of_mem _ (Dict.mem_keys_of_get? hl), h.keys]
  · intro m l' hm
    rw [Dict.get?_set] at hm
    split at hm
    · cases hm
      unfold setAdd
      rw [if_neg hxl, List.nodup_append]
      refine ⟨h.nodup _ _ hl, by simp, ?_⟩
      intro a ha b hb; simp at hb; subst hb; rintro rfl; exact hxl ha
    · exact h.nodup m l' hm
  · intro m l' hm e
    rw [Dict.get?_set] at hm
    simp only [Dict.get?_set]
    split at hm
    · next heq =>
      cases hm
      subst heq
      unfold setAdd
      rw [if_neg hxl, List.mem_append, h.spec _ _ hl e]
      constructor
      · rintro (⟨ed, hed, hs⟩ | he)
        · have : x.id ≠ e := by rintro rfl; exact hx (Dict.mem_keys_of_get? hed)
          exact ⟨ed, by rw [if_neg this]; exact hed, hs⟩
        · simp only [List.mem_singleton] at he
          exact ⟨x, by simp [he], rfl⟩
      · rintro ⟨ed, hed, hs⟩
        split at hed
        · next he => right; simp [he]
        · exact Or.inl ⟨ed, hed, hs⟩
    · next hne =>
      rw [h.spec _ _ hm e]
      constructor
      · rintro ⟨ed, hed, hs⟩
        have : x.id ≠ e := by rintro rfl; exact hx (Dict.mem_keys_of_get? hed)
        exact ⟨ed, by rw [if_neg this]; exact hed, hs⟩
      · rintro ⟨ed, hed, hs⟩
        split at hed
        · cases hed; exact absurd hs hne
        · exact ⟨ed, hed, hs⟩

theorem AdjOK.delEdge {sel : EdgeData ι ε → ι} {d : Dict ι (List ι)} {ns : List ι}
    {es : Dict ι (Item ι Unit (EdgeData ι ε))} (h : AdjOK sel d ns es) (wf : es.WF) {eid : ι}
    {x : Item ι Unit (EdgeData ι ε)} {l : List ι}
    (hx : es.get? eid = some x) (hl : d.get? (sel x.data) = some l) :
    AdjOK sel (d.set (sel x.data) (setDiscard l eid)) ns (es.del eid) := by
  constructor
  · rw [Dict.keys_set_of_mem _ (Dict.mem_keys_of_get? hl), h.keys]
  · intro m l' hm
    rw [Dict.get?_set] at hm
    split at hm
    · cases hm; exact (h.nodup _ _ hl).erase _
    · exact h.nodup m l' hm
  · intro m l' hm e
    rw [Dict.get?_set] at hm
    simp only [Dict.get?_del wf]
    split at hm
    · next heq =>
      cases hm
      subst heq
      unfold setDiscard
      rw [(h.nodup _ _ hl).mem_erase_iff, h.spec _ _ hl e]
      constructor
      · rintro ⟨hne, ed, hed, hs⟩
        exact ⟨ed, by rw [if_neg (Ne.symm hne)]; exact hed, hs⟩
      · rintro ⟨ed, hed, hs⟩
        split at hed
        · cases hed
        · next hne => exact ⟨Ne.symm hne, ed, hed, hs⟩
    · next hne =>
      rw [h.spec _ _ hm e]
      constructor
      · rintro ⟨ed, hed, hs⟩
        have : eid ≠ e := by rintro rfl; rw [hx] at hed; cases hed; exact hne hs
        exact ⟨ed, by rw [if_neg this]; exact hed, hs⟩
      · rintro ⟨ed, hed, hs⟩
        split at hed
        · cases hed
        · exact ⟨ed, hed, hs⟩

theorem AdjOK.delNode {sel : EdgeData ι ε → ι} {d : Dict ι (List ι)} {ns : List ι}
    {es : Dict ι (Item ι Unit (EdgeData ι ε))} (h : AdjOK sel d ns es) (hn : ns.Nodup) (n : ι) :
    AdjOK sel (d.del n) (ns.erase n) es := by
  have wf : d.WF := by unfold Dict.WF; rw [h.keys]; exact hn
  constructor
  · rw [Dict.keys_del, h.keys]
  · intro m l hm
    rw [Dict.get?_del wf] at hm
    split at hm
    · cases hm
    · exact h.nodup m l hm
  · intro m l hm e
    rw [Dict.get?_del wf] at hm
    split at hm
    · cases hm
    · exact h.spec m l hm e

/-- Representation invariant of a graph. -/
structure GInv (g : Graph ι ν ε) : Prop where
  nodes : Pile.Inv g.nodes
  edges : Pile.Inv g.edges
  out : AdjOK EdgeData.head g.out g.nodes.order g.edges.items
  inn : AdjOK EdgeData.tail g.inn g.nodes.order g.edges.items
  ends : ∀ e ed, g.edges.items.get? e = some ed → ed.data.head ∈ g.nodes.order ∧ ed.data.tail ∈ g.nodes.order

theorem ginv_empty : GInv ({} : Graph ι ν ε) := by
  refine ⟨Pile.inv_empty _ _ _, Pile.inv_empty _ _ _, ⟨rfl, ?_, ?_⟩, ⟨rfl, ?_, ?_⟩, ?_⟩ <;> intro _ _ h <;> cases h

/-! ### Effect of each operation -/

theorem addNode_cases {g : Graph ι ν ε} (h : GInv g) (a : Pile.Arg ι Unit ν) :
    (∃ e, addNode g a = (g, .error e)) ∨
    (∃ x, a = some x ∧ x.id ∉ g.nodes.order ∧
      addNode g a = ({ g with
        nodes := { g.nodes with items := g.nodes.items.set x.id x, order := g.nodes.order ++ [x.id] },
        out := g.out.set x.id [], inn := g.inn.set x.id [] }, .ok ())) := by
  cases a with
  | none => exact Or.inl ⟨_, rfl⟩
  | some x =>
    rcases Pile.add_cases anySub g.nodes (some x) with ⟨e, he⟩ | ⟨y, hy, hk, he⟩
    · left; exact ⟨e, by simp only [addNode, he]⟩
    · cases hy
      right
      exact ⟨x, rfl, fun hm => hk ((h.nodes.mem_iff _).1 hm), by simp only [addNode, he]⟩

theorem GInv.addNode {g : Graph ι ν ε} (h : GInv g) (a : Pile.Arg ι Unit ν) : GInv (addNode g a).1 := by
  rcases addNode_cases h a with ⟨e, he⟩ | ⟨x, rfl, hx, he⟩
  · rw [he]; exact h
  · rw [he]
    have hk : x.id ∉ g.nodes.items.keys := fun hm => hx ((h.nodes.mem_iff _).2 hm)
    refine ⟨(Pile.abs_add h.nodes x hk).1, h.edges, h.out.addNode hx ?_, h.inn.addNode hx ?_, ?_⟩
    · intro e ed hed hc; exact hx (hc ▸ (h.ends e ed hed).1)
    · intro e ed hed hc; exact hx (hc ▸ (h.ends e ed hed).2)
    · intro e ed hed
      have := h.ends e ed hed
      exact ⟨List.mem_append_left _ this.1, List.mem_append_left _ this.2⟩

theorem addEdge_cases {g : Graph ι ν ε} (h : GInv g) (a : Pile.Arg ι Unit (EdgeData ι ε)) :
    (∃ e, addEdge g a = (g, .error e)) ∨
    (∃ x l m, a = some x ∧ x.id ∉ g.edges.items.keys ∧ x.data.head ∈ g.nodes.order ∧ x.data.tail ∈ g.nodes.order ∧
      g.out.get? x.data.head = some l ∧ g.inn.get? x.data.tail = some m ∧
      addEdge g a = ({ g with
        edges := { g.edges with items := g.edges.items.set x.id x, order := g.edges.order ++ [x.id] },
        out := g.out.set x.data.head (setAdd l x.id), inn := g.inn.set x.data.tail (setAdd m x.id) }, .ok ())) := by
  cases a with
  | none => exact Or.inl ⟨_, rfl⟩
  | some x =>
    have hc : ∀ n, Pile.contains g.nodes (some n) = false ∨ n ∈ g.nodes.order := by
      intro n
      by_cases hn : n ∈ g.nodes.order
      · exact Or.inr hn
      · exact Or.inl ((Dict.has_eq_false_iff _ _).2 (fun hk => hn ((h.nodes.mem_iff _).2 hk)))
    have hct : ∀ n, n ∈ g.nodes.order → ¬ Pile.contains g.nodes (some n) = false := by
      intro n hn hf
      exact (Dict.has_eq_false_iff _ _).1 hf ((h.nodes.mem_iff _).1 hn)
    rcases hc x.data.head with h1 | h1
    · exact Or.inl ⟨.notFound, by simp only [addEdge]; rw [if_pos h1]⟩
    rcases hc x.data.tail with h2 | h2
    · exact Or.inl ⟨.notFound, by simp only [addEdge]; rw [if_neg (hct _ h1), if_pos h2]⟩
    rcases Pile.add_cases anySub g.edges (some x) with ⟨e, he⟩ | ⟨y, hy, hk, he⟩
    · left; exact ⟨e, by simp only [addEdge]; rw [if_neg (hct _ h1), if_neg (hct _ h2), he]⟩
    · cases hy
      right
      obtain ⟨l, hl⟩ := h.out.get h1
      obtain ⟨m, hm⟩ := h.inn.get h2
      exact ⟨x, l, m, rfl, hk, h1, h2, hl, hm, by
        simp only [addEdge]; rw [if_neg (hct _ h1), if_neg (hct _ h2), he]; simp only [hl, hm]⟩

theorem GInv.addEdge {g : Graph ι ν ε} (h : GInv g) (a : Pile.Arg ι Unit (EdgeData ι ε)) : GInv (addEdge g a).1 := by
  rcases addEdge_cases h a with ⟨e, he⟩ | ⟨x, l, m, rfl, hk, h1, h2, hl, hm, he⟩
  · rw [he]; exact h
  · rw [he]
    refine ⟨h.nodes, (Pile.abs_add h.edges x hk).1, h.out.addEdge hk hl, h.inn.addEdge hk hm, ?_⟩
    intro e ed hed
    simp only [Dict.get?_set] at hed
    split at hed
    · cases hed; exact ⟨h1, h2⟩
    · exact h.ends e ed hed

/-- The graph without edge `eid`. -/
theorem removeEdge_ok {g : Graph ι ν ε} (h : GInv g) {eid : ι} {x : Item ι Unit (EdgeData ι ε)}
    (hx : g.edges.items.get? eid = some x) :
    ∃ g', removeEdge g (some eid) = (g', .ok x) ∧ GInv g' ∧ g'.nodes = g.nodes ∧
      g'.edges = { g.edges with items := g.edges.items.del eid, order := g.edges.order.erase eid } := by
  have he := h.ends eid x hx
  obtain ⟨l, hl⟩ := h.out.get he.1
  obtain ⟨m, hm⟩ := h.inn.get he.2
  refine ⟨{ g with edges := { g.edges with items := g.edges.items.del eid, order := g.edges.order.erase eid }, out := g.out.set x.data.head (setDiscard l eid), inn := g.inn.set x.data.tail (setDiscard m eid) }, ?_, ?_, rfl, rfl⟩
  · simp only [removeEdge, hx, hl, hm, Pile.remove_ok h.edges hx]
  · refine ⟨h.nodes, (Pile.abs_del h.edges eid).1, h.out.delEdge h.edges.wf hx hl, h.inn.delEdge h.edges.wf hx hm, ?_⟩
    intro e ed hed
    simp only [Dict.get?_del h.edges.wf] at hed
    split at hed
    · cases hed
    · exact h.ends e ed hed

theorem removeEdge_error {g : Graph ι ν ε} (h : GInv g) {r : Ref ι} {e : Exc} (he : (removeEdge g r).2 = .error e) :
    removeEdge g r = (g, .error e) := by
  cases r with
  | none => cases he; rfl
  | some eid =>
    cases hx : g.edges.items.get? eid with
    | none => simp only [removeEdge, hx] at he ⊢; rw [he]
    | some x =>
      obtain ⟨g', h1, _⟩ := removeEdge_ok h hx
      rw [h1] at he; cases he

theorem GInv.removeEdge {g : Graph ι ν ε} (h : GInv g) (r : Ref ι) : GInv (removeEdge g r).1 := by
  cases hc : (Graph.removeEdge g r).2 with
  | error e => rw [removeEdge_error h hc]; exact h
  | ok x =>
    cases r with
    | none => cases hc
    | some eid =>
      cases hx : g.edges.items.get? eid with
      | none => simp only [Graph.removeEdge, hx] at hc; cases hc
      | some x =>
        obtain ⟨g', h1, h2, _⟩ := removeEdge_ok h hx
        rw [h1]; exact h2

theorem removeEdges_ok {g : Graph ι ν ε} (h : GInv g) (es : List ι) (hn : es.Nodup)
    (hm : ∀ e ∈ es, e ∈ g.edges.items.keys) :
    ∃ g', removeEdges g es = (g', .ok ()) ∧ GInv g' ∧ g'.nodes = g.nodes ∧
      Pile.abs g'.edges = (Pile.abs g.edges).filter (fun x => decide (x.id ∉ es)) := by
  induction es generalizing g with
  | nil => exact ⟨g, rfl, h, rfl, by symm; rw [List.filter_eq_self]; simp⟩
  | cons e es ih =>
    rw [List.nodup_cons] at hn
    obtain ⟨x, hx⟩ := Option.isSome_iff_exists.1 ((Dict.get?_isSome_iff _ _).2 (hm e (by simp)))
    obtain ⟨g1, h1, h2, h3, h4⟩ := removeEdge_ok h hx
    have habs := (Pile.abs_del h.edges e).2
    obtain ⟨g2, k1, k2, k3, k4⟩ := ih h2 hn.2 (by
      intro e' he'
      rw [h4]
      show e' ∈ (g.edges.items.del e).keys
      rw [Dict.mem_keys_del h.edges.wf]
      exact ⟨by rintro rfl; exact hn.1 he', hm e' (by simp [he'])⟩)
    refine ⟨g2, by simp only [removeEdges, h1]; exact k1, k2, by rw [k3, h3], ?_⟩
    rw [k4, h4, habs, OMap.without, List.filter_filter]
    apply List.filter_congr
    intro y _
    simp only [List.mem_cons, not_or, Bool.decide_and]
    rw [Bool.and_comm]

theorem adj_eq {d : Dict ι (List ι)} {n : ι} {l : List ι} (h : d.get? n = some l) : adj d n = l := by
  simp [adj, h]

theorem mem_abs_edge {g : Graph ι ν ε} (h : GInv g) (x : Item ι Unit (EdgeData ι ε)) :
    x ∈ Pile.abs g.edges ↔ g.edges.items.get? x.id = some x := Pile.mem_abs h.edges x

/-- Removing a node: exact effect on nodes and edges. -/
theorem removeNode_ok {g : Graph ι ν ε} (h : GInv g) (o : SetOrder ι) {n : ι} {x : Item ι Unit ν}
    (hx : g.nodes.items.get? n = some x) :
    ∃ g', removeNode o g (some n) = (g', .ok x) ∧ GInv g' ∧
      Pile.abs g'.nodes = (Pile.abs g.nodes).filter (fun y => decide (y.id ≠ n)) ∧
      Pile.abs g'.edges = (Pile.abs g.edges).filter (fun e => decide (e.data.head ≠ n ∧ e.data.tail ≠ n)) := by
  have hno : n ∈ g.nodes.order := (h.nodes.mem_iff _).2 (Dict.mem_keys_of_get? hx)
  obtain ⟨ins, hins⟩ := h.inn.get hno
  obtain ⟨g1, a1, a2, a3, a4⟩ := removeEdges_ok h (o.inn n ins) ((o.inn_perm n ins).nodup_iff.2 (h.inn.nodup _ _ hins)) (by
    intro e he
    obtain ⟨ed, hed, _⟩ := (h.inn.spec _ _ hins e).1 ((o.inn_perm n ins).mem_iff.1 he)
    exact Dict.mem_keys_of_get? hed)
  have hno1 : n ∈ g1.nodes.order := by rw [a3]; exact hno
  obtain ⟨outs, houts⟩ := a2.out.get hno1
  obtain ⟨g2, b1, b2, b3, b4⟩ := removeEdges_ok a2 (o.out n outs) ((o.out_perm n outs).nodup_iff.2 (a2.out.nodup _ _ houts)) (by
    intro e he
    obtain ⟨ed, hed, _⟩ := (a2.out.spec _ _ houts e).1 ((o.out_perm n outs).mem_iff.1 he)
    exact Dict.mem_keys_of_get? hed)
  have hx2 : g2.nodes.items.get? n = some x := by rw [b3, a3]; exact hx
  have hedges : Pile.abs g2.edges = (Pile.abs g.edges).filter (fun e => decide (e.data.head ≠ n ∧ e.data.tail ≠ n)) := by
    rw [b4, a4, List.filter_filter]
    apply List.filter_congr
    intro e he
    have heg := (mem_abs_edge h e).1 he
    have hin : e.id ∈ o.inn n ins ↔ e.data.tail = n := by
      rw [(o.inn_perm n ins).mem_iff, h.inn.spec _ _ hins]
      constructor
      · rintro ⟨ed, hed, hs⟩; rw [heg] at hed; cases hed; exact hs
      · intro hs; exact ⟨e, heg, hs⟩
    have hout : e.data.tail ≠ n → (e.id ∈ o.out n outs ↔ e.data.head = n) := by
      intro hne
      rw [(o.out_perm n outs).mem_iff, a2.out.spec _ _ houts]
      have hg1 : g1.edges.items.get? e.id = some e := by
        rw [← mem_abs_edge a2, a4, List.mem_filter]
        exact ⟨he, by simp [hin, hne]⟩
      constructor
      · rintro ⟨ed, hed, hs⟩; rw [hg1] at hed; cases hed; exact hs
      · intro hs; exact ⟨e, hg1, hs⟩
    by_cases ht : e.data.tail = n
    · have := hin.2 ht
      simp [this, ht]
    · simp [hin, ht, hout ht]
  have hnone : ∀ e ed, g2.edges.items.get? e = some ed → ed.data.head ≠ n ∧ ed.data.tail ≠ n := by
    intro e ed hed
    have hid := b2.edges.ids e ed hed
    have : ed ∈ Pile.abs g2.edges := (mem_abs_edge b2 ed).2 (by rw [hid]; exact hed)
    rw [hedges, List.mem_filter] at this
    simpa using this.2
  refine ⟨{ g2 with nodes := { g2.nodes with items := g2.nodes.items.del n, order := g2.nodes.order.erase n }, inn := g2.inn.del n, out := g2.out.del n }, ?_, ?_, ?_, hedges⟩
  · simp only [removeNode, hx, hins, a1, houts, b1, Pile.remove_ok b2.nodes hx2]
  · refine ⟨(Pile.abs_del b2.nodes n).1, b2.edges, b2.out.delNode b2.nodes.nodup n, b2.inn.delNode b2.nodes.nodup n, ?_⟩
    intro e ed hed
    have h1 := b2.ends e ed hed
    have h2 := hnone e ed hed
    exact ⟨(b2.nodes.nodup.mem_erase_iff).2 ⟨h2.1, h1.1⟩, (b2.nodes.nodup.mem_erase_iff).2 ⟨h2.2, h1.2⟩⟩
  · rw [(Pile.abs_del b2.nodes n).2, b3, a3]
    rfl

theorem removeNode_error {g : Graph ι ν ε} (h : GInv g) (o : SetOrder ι) {r : Ref ι} {e : Exc}
    (he : (removeNode o g r).2 = .error e) : removeNode o g r = (g, .error e) := by
  cases r with
  | none => cases he; rfl
  | some n =>
    cases hx : g.nodes.items.get? n with
    | none => simp only [removeNode, hx] at he ⊢; rw [he]
    | some x =>
      obtain ⟨g', h1, _⟩ := removeNode_ok h o hx
      rw [h1] at he; cases he

theorem GInv.removeNode {g : Graph ι ν ε} (h : GInv g) (o : SetOrder ι) (r : Ref ι) : GInv (removeNode o g r).1 := by
  cases hc : (Graph.removeNode o g r).2 with
  | error e => rw [removeNode_error h o hc]; exact h
  | ok x =>
    cases r with
    | none => cases hc
    | some n =>
      cases hx : g.nodes.items.get? n with
      | none => simp only [Graph.removeNode, hx] at hc; cases hc
      | some x =>
        obtain ⟨g', h1, h2, _⟩ := removeNode_ok h o hx
        rw [h1]; exact h2

theorem GInv.step {g : Graph ι ν ε} (h : GInv g) (op : Op ι ν ε) : GInv (step g op).1 := by
  cases op with
  | addNode a => exact h.addNode a
  | removeNode o r => exact h.removeNode o r
  | addEdge a => exact h.addEdge a
  | removeEdge r => exact h.removeEdge r

theorem GInv.run {g : Graph ι ν ε} (h : GInv g) (ops : List (Op ι ν ε)) : GInv (run g ops) := by
  induction ops generalizing g with
  | nil => exact h
  | cons op ops ih => exact ih (h.step op)

/-! ### Queries -/

theorem mapE_eq {α β : Type} (f : α → Except Exc β) (g : α → Option β) (l : List α)
    (h : ∀ a ∈ l, ∃ b, f a = .ok b ∧ g a = some b) : mapE f l = .ok (l.filterMap g) := by
  induction l with
  | nil => rfl
  | cons a l ih =>
    obtain ⟨b, h1, h2⟩ := h a (by simp)
    simp only [mapE, h1, ih (fun x hx => h x (by simp [hx])), List.filterMap_cons, h2]

theorem edge_ok {g : Graph ι ν ε} {e : ι} {x : Item ι Unit (EdgeData ι ε)} (h : g.edges.items.get? e = some x) :
    edge g e = .ok x := by simp [edge, h]

theorem node_ok {g : Graph ι ν ε} {n : ι} {x : Item ι Unit ν} (h : g.nodes.items.get? n = some x) :
    node g n = .ok x := by simp [node, h]

theorem GInv.node_get {g : Graph ι ν ε} (h : GInv g) {n : ι} (hn : n ∈ g.nodes.order) :
    ∃ x, g.nodes.items.get? n = some x :=
  Option.isSome_iff_exists.1 ((Dict.get?_isSome_iff _ _).2 ((h.nodes.mem_iff _).1 hn))

end Verif.Graph
