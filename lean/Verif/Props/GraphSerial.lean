import Verif.Props.Graph

/-!
# Properties C17 (recursion depth), C20, C88: deep graphs, serialisation and construction of `Graph`
-/

set_option linter.unusedSectionVars false
set_option linter.unusedSimpArgs false

namespace Verif.Graph

open Digraph

variable {ι ν ε : Type} [DecidableEq ι]

/-! ## C17 — a chain deeper than the recursion limit -/

/-- Node and edge number `i` of the chain. -/
def cn (i : Nat) : Item (Bool × Nat) Unit Unit := ⟨(false, i), (), ()⟩
@[inherit_doc cn] def ce (i : Nat) : Item (Bool × Nat) Unit (EdgeData (Bool × Nat) Unit) :=
  ⟨(true, i), (), ⟨(false, i), (false, i + 1), ()⟩⟩

/-- History building the chain `0 → 1 → … → k`. -/
def chainOps : Nat → List (Op (Bool × Nat) Unit Unit)
  | 0 => [.addNode (some (cn 0))]
  | k + 1 => chainOps k ++ [.addNode (some (cn (k + 1))), .addEdge (some (ce k))]

theorem chain_run (k : Nat) : SG.run (chainOps k) = ⟨(List.range (k + 1)).map cn, (List.range k).map ce⟩ := by
  induction k with
  | zero => rfl
  | succ k ih =>
    unfold SG.run at ih ⊢
    rw [chainOps, List.foldl_append, ih]
    have h1 : ¬ (SG.mk ((List.range (k + 1)).map cn) ((List.range k).map ce)).IsNode (cn (k + 1)).id := by
      simp [SG.IsNode, cn]
    have e1 : SG.next ⟨(List.range (k + 1)).map cn, (List.range k).map ce⟩ (.addNode (some (cn (k + 1)))) =
        ⟨(List.range (k + 1 + 1)).map cn, (List.range k).map ce⟩ := by
      simp only [SG.next, SG.step]
      rw [if_neg h1, List.range_succ (n := k + 1)]
      simp
    have h2 : (SG.mk ((List.range (k + 1 + 1)).map cn) ((List.range k).map ce)).IsNode (ce k).data.head := by
      simp [SG.IsNode, cn, ce]; omega
    have h3 : (SG.mk ((List.range (k + 1 + 1)).map cn) ((List.range k).map ce)).IsNode (ce k).data.tail := by
      simp [SG.IsNode, cn, ce]
    have h4 : (ce k).id ∉ ((List.range k).map ce).map Item.id := by simp [ce]
    have e2 : SG.next ⟨(List.range (k + 1 + 1)).map cn, (List.range k).map ce⟩ (.addEdge (some (ce k))) =
        ⟨(List.range (k + 1 + 1)).map cn, (List.range (k + 1)).map ce⟩ := by
      simp only [SG.next, SG.step]
      rw [if_neg (by intro h; rcases h with h | h; exact h h2; exact h h3), if_neg h4, List.range_succ (n := k)]
      simp
    simp only [List.foldl_cons, List.foldl_nil, e1, e2]

theorem chain_dfs {g : Graph (Bool × Nat) Unit Unit} (o : SetOrder (Bool × Nat)) (k : Nat)
    (hout : ∀ i < k, g.out.get? (false, i) = some [(true, i)])
    (hed : ∀ i < k, g.edges.items.get? (true, i) = some (ce i)) (f : Nat) :
    ∀ i c, f + i ≤ k → (∀ j, i < j → j ≤ k → Dict.get? c (false, j) = some .white) →
      ∃ c', dfs o g f (false, i) c = (c', .error .recursionError) := by
  induction f with
  | zero => intro i c _ _; exact ⟨c, rfl⟩
  | succ f ih =>
    intro i c hi hw
    have hperm := o.out_perm (false, i) [(true, i)]
    rw [List.perm_singleton] at hperm
    have hwi : (c.set (false, i) Color.gray).get? (false, i + 1) = some .white := by
      rw [Dict.get?_set, if_neg (by simp)]
      exact hw (i + 1) (by omega) (by omega)
    obtain ⟨c', hc'⟩ := ih (i + 1) (c.set (false, i) .gray) (by omega) (by
      intro j h1 h2
      rw [Dict.get?_set, if_neg (by simp; omega)]
      exact hw j (by omega) h2)
    refine ⟨c', ?_⟩
    simp only [dfs, hout i (by omega), hperm, dfsLoop, edge_ok (hed i (by omega))]
    have : (ce i).data.tail = (false, i + 1) := rfl
    rw [this, hwi]
    simp only [hc']

/-- Outside the domain of C17: for every recursion limit there is a graph built by a history, with one node more than the
limit, that has no cycle, and on which `is_acyclic()` (hence `topological_sort()`) raises `RecursionError` for every
iteration order. -/
theorem C17_deep_limit (limit : Nat) (o : SetOrder (Bool × Nat)) :
    ∃ (ops : List (Op (Bool × Nat) Unit Unit)) (s : SG (Bool × Nat) Unit Unit),
      Shows (run {} ops) s ∧ s.nodes.length = limit + 1 ∧ Acyclic s.edges ∧
      isAcyclic o (run {} ops) limit = .error .recursionError := by
  obtain ⟨h, _⟩ := run_ok (chainOps limit) (ginv_empty (ν := Unit) (ε := Unit)) cfg_empty
  have hv : view (run ({} : Graph (Bool × Nat) Unit Unit) (chainOps limit)) = _ := (run_view _).trans (chain_run limit)
  refine ⟨chainOps limit, _, (shows_iff h _).2 hv.symm, by simp, ?_, ?_⟩
  · have : ∀ p a b, Walk ((List.range limit).map ce) a p b → a.2 + p.length = b.2 := by
      intro p
      induction p with
      | nil => intro a b h; cases h; rfl
      | cons e p ih =>
        rintro a b ⟨h1, h2, h3⟩
        obtain ⟨i, _, rfl⟩ := List.mem_map.1 h1
        have := ih _ _ h3
        rw [← h2]
        simp only [ce, List.length_cons] at this ⊢
        omega
    intro n p hw
    have := this p n n hw
    exact List.length_eq_zero_iff.1 (by omega)
  · generalize run ({} : Graph (Bool × Nat) Unit Unit) (chainOps limit) = g at h hv
    have habsN : Pile.abs g.nodes = (List.range (limit + 1)).map cn := congrArg SG.nodes hv
    have habsE : Pile.abs g.edges = (List.range limit).map ce := congrArg SG.edges hv
    have horder : g.nodes.order = (List.range (limit + 1)).map (fun i => (false, i)) := by
      rw [← Pile.abs_ids h.nodes, habsN]; simp [cn, Function.comp_def]
    have hed : ∀ i < limit, g.edges.items.get? (true, i) = some (ce i) := by
      intro i hi
      exact (mem_abs_edge h (ce i)).1 (by rw [habsE]; exact List.mem_map.2 ⟨i, by simpa using hi, rfl⟩)
    have hout : ∀ i < limit, g.out.get? (false, i) = some [(true, i)] := by
      intro i hi
      have hin : (false, i) ∈ g.nodes.order := by rw [horder]; simp; omega
      obtain ⟨l, hl⟩ := h.out.get hin
      have hp := adj_perm h h.out (fun e he => (h.ends e.id e ((mem_abs_edge h e).1 he)).1) (false, i)
      rw [adj_eq hl] at hp
      rw [hl]
      have hl2 : l.Perm [(true, i)] := by
        rw [List.perm_ext_iff_of_nodup (h.out.nodup _ _ hl) (by simp)]
        intro e
        rw [h.out.spec _ _ hl e]
        constructor
        · rintro ⟨ed, hed', hh⟩
          have hid := h.edges.ids e ed hed'
          have : ed ∈ Pile.abs g.edges := (mem_abs_edge h ed).2 (by rw [hid]; exact hed')
          rw [habsE] at this
          obtain ⟨j, _, rfl⟩ := List.mem_map.1 this
          simp only [ce, Prod.mk.injEq] at hh
          rw [← hid, ← hh.2]; simp [ce]
        · intro he
          simp at he
          subst he
          exact ⟨ce i, hed i hi, rfl⟩
      rw [List.perm_singleton] at hl2
      rw [hl2]
    unfold isAcyclic Pile.keys
    have hcol : ∀ (l : List (Bool × Nat)) n, n ∈ l → Dict.get? (l.map (fun n => (n, Color.white))) n = some .white := by
      intro l n hn
      induction l with
      | nil => cases hn
      | cons a l ih =>
        rw [List.map_cons, Dict.get?_cons]
        split
        · rfl
        · next hne =>
          rcases List.mem_cons.1 hn with h' | h'
          · exact absurd h'.symm hne
          · exact ih h'
    obtain ⟨c', hc'⟩ := chain_dfs o limit hout hed limit 0 (g.nodes.order.map (fun n => (n, Color.white))) (by omega) (by
      intro j _ hj
      apply hcol
      rw [horder]; simp; omega)
    have h0 : Dict.get? (g.nodes.order.map (fun n => (n, Color.white))) (false, 0) = some .white := by
      apply hcol; rw [horder]; simp
    obtain ⟨t, ht⟩ : ∃ t, g.nodes.order = (false, 0) :: t := by
      refine ⟨((List.range limit).map Nat.succ).map (fun i => (false, i)), ?_⟩
      rw [horder, List.range_succ_eq_map]; rfl
    rw [ht] at h0 hc' ⊢
    simp only [dfsAll, h0, hc']

/-- Outside the domain of C18: on the same acyclic graphs `topological_sort()` raises `RecursionError` instead of returning an order. -/
theorem C18_deep_limit (limit fuel : Nat) (o : SetOrder (Bool × Nat)) :
    ∃ (ops : List (Op (Bool × Nat) Unit Unit)) (s : SG (Bool × Nat) Unit Unit),
      Shows (run {} ops) s ∧ s.nodes.length = limit + 1 ∧ Acyclic s.edges ∧
      topologicalSort o (run {} ops) limit fuel = some (.error .recursionError) := by
  obtain ⟨ops, s, h1, h2, h3, h4⟩ := C17_deep_limit limit o
  refine ⟨ops, s, h1, h2, h3, ?_⟩
  simp only [topologicalSort, h4]

/-! ## Rebuilding the adjacency -/

theorem AdjOK.congr {sel : EdgeData ι ε → ι} {d : Dict ι (List ι)} {ns : List ι} {es es' : Dict ι (Item ι Unit (EdgeData ι ε))}
    (h : AdjOK sel d ns es) (he : ∀ u, es.get? u = es'.get? u) : AdjOK sel d ns es' :=
  ⟨h.keys, h.nodup, fun n l hl e => by rw [h.spec n l hl e]; simp only [he]⟩

theorem AdjOK.skip {sel : EdgeData ι ε → ι} {d : Dict ι (List ι)} {ns : List ι} {es : Dict ι (Item ι Unit (EdgeData ι ε))}
    (h : AdjOK sel d ns es) {x : Item ι Unit (EdgeData ι ε)} (hx : x.id ∉ es.keys) (hn : sel x.data ∉ ns) :
    AdjOK sel d ns (es.set x.id x) := by
  refine ⟨h.keys, h.nodup, ?_⟩
  intro n l hl e
  have hnn : n ∈ ns := by rw [← h.keys]; exact Dict.mem_keys_of_get? hl
  rw [h.spec n l hl e]
  constructor
  · rintro ⟨ed, h1, h2⟩
    refine ⟨ed, ?_, h2⟩
    rw [Dict.get?_set, if_neg]
    · exact h1
    · intro hc; exact hx (hc ▸ Dict.mem_keys_of_get? h1)
  · rintro ⟨ed, h1, h2⟩
    rw [Dict.get?_set] at h1
    split at h1
    · cases h1; exact absurd (h2 ▸ hnn) hn
    · exact ⟨ed, h1, h2⟩

theorem AdjOK.addIfPresent {sel : EdgeData ι ε → ι} {d : Dict ι (List ι)} {ns : List ι}
    {es : Dict ι (Item ι Unit (EdgeData ι ε))} (h : AdjOK sel d ns es) {x : Item ι Unit (EdgeData ι ε)} (hx : x.id ∉ es.keys) :
    AdjOK sel (Graph.addIfPresent d (sel x.data) x.id) ns (es.set x.id x) := by
  unfold Graph.addIfPresent
  cases hl : d.get? (sel x.data) with
  | none => exact h.skip hx (by rw [← h.keys]; exact (Dict.get?_eq_none_iff _ _).1 hl)
  | some l => exact h.addEdge hx hl

theorem rebuildLoop_ok (ns : List ι) (es : List (Item ι Unit (EdgeData ι ε))) :
    ∀ (o i : Dict ι (List ι)) (P : Dict ι (Item ι Unit (EdgeData ι ε))), AdjOK EdgeData.head o ns P → AdjOK EdgeData.tail i ns P →
      (es.map Item.id).Nodup → (∀ x ∈ es, x.id ∉ P.keys) →
      AdjOK EdgeData.head (rebuildLoop es (o, i)).1 ns (es.foldl (fun P x => P.set x.id x) P) ∧
      AdjOK EdgeData.tail (rebuildLoop es (o, i)).2 ns (es.foldl (fun P x => P.set x.id x) P) := by
  induction es with
  | nil => intro o i P h1 h2 _ _; exact ⟨h1, h2⟩
  | cons x es ih =>
    intro o i P h1 h2 hn hk
    rw [List.map_cons, List.nodup_cons] at hn
    have hx := hk x (by simp)
    refine ih _ _ _ (h1.addIfPresent hx) (h2.addIfPresent hx) hn.2 ?_
    intro y hy
    rw [Dict.mem_keys_set]
    rintro (h | h)
    · exact hn.1 (List.mem_map.2 ⟨y, hy, h⟩)
    · exact hk y (by simp [hy]) h

theorem foldl_set_get {es : List (Item ι Unit (EdgeData ι ε))} (hn : (es.map Item.id).Nodup) (u : ι) :
    ∀ P : Dict ι (Item ι Unit (EdgeData ι ε)), (es.foldl (fun P x => P.set x.id x) P).get? u =
      ((es.find? (fun x => decide (x.id = u))).or (P.get? u)) := by
  induction es with
  | nil => intro P; simp
  | cons x es ih =>
    intro P
    rw [List.map_cons, List.nodup_cons] at hn
    rw [List.foldl_cons, ih hn.2, Dict.get?_set, List.find?_cons]
    by_cases h : x.id = u
    · have : es.find? (fun y => decide (y.id = u)) = none := by
        rw [List.find?_eq_none]
        intro y hy hc
        have : y.id = u := by simpa using hc
        exact hn.1 (List.mem_map.2 ⟨y, hy, by rw [this, h]⟩)
      simp [h, this]
    · simp [h]

/-- The constructor: any two consistent piles are accepted; the adjacency lists are right for every node. -/
theorem mk'_ok {n : Pile ι Unit ν} {e : Pile ι Unit (EdgeData ι ε)} (_hn : Pile.Inv n) (he : Pile.Inv e) :
    ∃ g, mk' n e = .ok g ∧ g.nodes = n ∧ g.edges = e ∧ AdjOK EdgeData.head g.out n.order e.items ∧
      AdjOK EdgeData.tail g.inn n.order e.items := by
  have hempty : ∀ sel : EdgeData ι ε → ι, AdjOK sel (n.keys.map (fun n => (n, ([] : List ι)))) n.order [] := by
    intro sel
    have hget : ∀ (l : List ι) m L, Dict.get? (l.map (fun n => (n, ([] : List ι)))) m = some L → L = [] := by
      intro l m L h
      induction l with
      | nil => cases h
      | cons a l ih =>
        rw [List.map_cons, Dict.get?_cons] at h
        split at h
        · cases h; rfl
        · exact ih h
    refine ⟨by simp [Dict.keys, Pile.keys, Function.comp_def], ?_, ?_⟩
    · intro m l hl; rw [hget _ _ _ hl]; simp
    · intro m l hl e; rw [hget _ _ _ hl]; simp
  have h := rebuildLoop_ok n.order (Pile.abs e) _ _ [] (hempty _) (hempty _) (Pile.abs_nodup he) (by simp)
  have hg : ∀ u, Dict.get? ((Pile.abs e).foldl (fun (P : Dict ι (Item ι Unit (EdgeData ι ε))) x => Dict.set P x.id x) []) u
      = e.items.get? u := by
    intro u
    rw [foldl_set_get (Pile.abs_nodup he), find_abs he]
    cases e.items.get? u <;> rfl
  refine ⟨_, by simp only [mk', Pile.iter_eq he]; rfl, rfl, rfl, h.1.congr hg, h.2.congr hg⟩

theorem mk'_ginv {n : Pile ι Unit ν} {e : Pile ι Unit (EdgeData ι ε)} (hn : Pile.Inv n) (he : Pile.Inv e)
    (hends : ∀ x ∈ Pile.abs e, x.data.head ∈ n.order ∧ x.data.tail ∈ n.order) :
    ∃ g, mk' n e = .ok g ∧ g.nodes = n ∧ g.edges = e ∧ GInv g := by
  obtain ⟨g, h1, h2, h3, h4, h5⟩ := mk'_ok hn he
  refine ⟨g, h1, h2, h3, ⟨by rw [h2]; exact hn, by rw [h3]; exact he, by rw [h2, h3]; exact h4, by rw [h2, h3]; exact h5, ?_⟩⟩
  intro u ed hed
  rw [h3] at hed
  rw [h2]
  have hid := he.ids u ed hed
  exact hends ed ((Pile.mem_abs he ed).2 (by rw [hid]; exact hed))

/-! ## C20 — serialisation -/

/-- Round trip of a node or edge pile whose items come back as `f x`. -/
theorem pile_round_trip {D δ : Type} (clsName : Unit → String) (load : String → Option Unit) (lionClass : D → Option String)
    (enc : Item ι Unit δ → D) (dec : D → Except Exc (Item ι Unit δ)) (f : Item ι Unit δ → Item ι Unit δ)
    (hload : ∀ c, load (clsName c) = some c) (hdec : ∀ x, dec (enc x) = .ok (f x)) (hid : ∀ x, (f x).id = x.id)
    {p : Pile ι Unit δ} (h : Pile.Inv p) (ht : p.itemType = some [()]) (hs : p.strict = false) (hp : p.pname = none) :
    ∃ d q, Pile.toDict clsName enc none p = .ok d ∧ pileFrom load lionClass dec (some d) = .ok q ∧ Pile.Inv q ∧
      Pile.abs q = (Pile.abs p).map f ∧ q.itemType = some [()] ∧ q.strict = false ∧ q.pname = none := by
  let p1 : Pile ι Unit δ := { itemType := some [()] }
  have hp1 : Pile.Inv p1 := Pile.inv_empty _ _ _
  have hids : ((Pile.abs p).map f).map Item.id = (Pile.abs p).map Item.id := by
    rw [List.map_map]; exact List.map_congr_left (fun x _ => hid x)
  obtain ⟨q, hq⟩ := Pile.addAll_ok anySub hp1 ((Pile.abs p).map f) (fun x _ => valid_any x)
    (by rw [hids]; exact Pile.abs_nodup h) (by simp [p1, Dict.keys])
  obtain ⟨hqi, hq1, hq2, hq3, hqa⟩ := Pile.addAll_spec anySub hp1 _ q hq
  have hqabs : Pile.abs q = (Pile.abs p).map f := by
    have : (Pile.abs q).map some = ((Pile.abs p).map f).map some := by simpa [Pile.abs, p1] using hqa
    exact (List.map_inj_right (fun _ _ h => Option.some.inj h)).1 this
  refine ⟨_, q, by simp only [Pile.toDict, Pile.iter_eq h]; rfl, ?_, hqi, hqabs, hq1, hq2, hq3⟩
  have hadd : ∀ (r : Pile ι Unit δ) (l : List (Item ι Unit δ)),
      Pile.addDecoded anySub dec r (l.map enc) = Pile.addAll anySub r ((l.map f).map some) := by
    intro r l
    induction l generalizing r with
    | nil => rfl
    | cons x xs ih =>
      simp only [List.map_cons, Pile.addDecoded, Pile.addAll, hdec]
      cases hadd : Pile.add anySub r (some (f x)) with
      | mk p' res => cases res with
        | error e => rfl
        | ok u => exact ih p'
  have hpre : ∀ l : List D, Pile.precheckAll anySub load lionClass (some [()]) false l = true := by
    intro l
    simp only [Pile.precheckAll, List.all_eq_true]
    intro d _
    unfold Pile.precheck
    cases lionClass d with
    | none => rfl
    | some s =>
      dsimp only
      cases load s with
      | none => rfl
      | some c => simp
  simp only [pileFrom, Pile.fromDict, ht, hs, hp, Option.map_some, List.map_cons, List.map_nil, Pile.itemTypeData, Pile.loadTypes,
    Pile.loadAll, hload]
  rw [if_neg (by rw [hpre]; simp)]
  rw [hadd]
  exact hq

/-- What an edge looks like after the round trip: `f` acts on everything but id, head and tail. -/
def strip (f : ε → ε) (e : Item ι Unit (EdgeData ι ε)) : Item ι Unit (EdgeData ι ε) :=
  ⟨e.id, (), ⟨e.data.head, e.data.tail, f e.data.info⟩⟩

/-- **C20**.  For every reachable graph, if nodes come back equal and edges come back with the same id, head and tail (their
other content may change by `f`: `condition` is not serialised, `graph.py:73-75`), then `from_dict(to_dict(g))` is a graph with
the same nodes and edges in the same order; its neighbour queries are exact, and any further history of
calls gives the same results as on a graph with those nodes and edges. -/
theorem C20_round_trip {D : Type} (clsN clsE : Unit → String) (load : String → Option Unit) (lionClass : D → Option String)
    (encN : Item ι Unit ν → D) (decN : D → Except Exc (Item ι Unit ν))
    (encE : Item ι Unit (EdgeData ι ε) → D) (decE : D → Except Exc (Item ι Unit (EdgeData ι ε))) (f : ε → ε)
    (hN : ∀ c, load (clsN c) = some c) (hE : ∀ c, load (clsE c) = some c)
    (hdN : ∀ x, decN (encN x) = .ok x) (hdE : ∀ e, decE (encE e) = .ok (strip f e))
    (ops : List (Op ι ν ε)) (s : SG ι ν ε) (hs : Shows (run {} ops) s) :
    ∃ d g', toDict clsN clsE encN encE (run {} ops) = .ok d ∧ fromDict load lionClass decN decE d = .ok g' ∧
      Shows g' ⟨s.nodes, s.edges.map (strip f)⟩ ∧
      (∀ o n, (∃ l, getSuccessors o g' (some n) = .ok l ∧ (∀ x ∈ l, x ∈ s.nodes) ∧
          (l.map Item.id).Perm ((s.edges.filter (fun e => decide (e.data.head = n))).map (·.data.tail))) ∧
        (∃ l, getPredecessors o g' (some n) = .ok l ∧ (∀ x ∈ l, x ∈ s.nodes) ∧
          (l.map Item.id).Perm ((s.edges.filter (fun e => decide (e.data.tail = n))).map (·.data.head)))) ∧
      (∀ ops2 op, Shows (run g' ops2) (ops2.foldl SG.next ⟨s.nodes, s.edges.map (strip f)⟩) ∧
        (step (run g' ops2) op).2 =
          ((ops2.foldl SG.next ⟨s.nodes, s.edges.map (strip f)⟩).step op).map Prod.snd) := by
  obtain ⟨h, hc⟩ := run_ok ops (ginv_empty (ν := ν) (ε := ε)) cfg_empty
  rw [shows_iff h] at hs
  subst hs
  obtain ⟨dn, qn, n1, n2, n3, n4, n5, n6, n7⟩ := pile_round_trip clsN load lionClass encN decN id hN (by simpa using hdN)
    (fun _ => rfl) h.nodes hc.nt hc.ns hc.np
  obtain ⟨de, qe, e1, e2, e3, e4, e5, e6, e7⟩ := pile_round_trip clsE load lionClass encE decE (strip f) hE hdE
    (fun _ => rfl) h.edges hc.et hc.es hc.ep
  rw [List.map_id] at n4
  have hno : qn.order = (run ({} : Graph ι ν ε) ops).nodes.order := by rw [← Pile.abs_ids n3, n4, Pile.abs_ids h.nodes]
  obtain ⟨g', g1, g2, g3, g4⟩ := mk'_ginv n3 e3 (by
    intro x hx
    rw [e4] at hx
    obtain ⟨y, hy, rfl⟩ := List.mem_map.1 hx
    rw [hno]
    exact h.ends y.id y ((mem_abs_edge h y).1 hy))
  have hview : view g' = ⟨(view (run ({} : Graph ι ν ε) ops)).nodes, (view (run ({} : Graph ι ν ε) ops)).edges.map (strip f)⟩ := by
    simp only [view, g2, g3, n4, e4]
  have hc' : Cfg g' := ⟨by rw [g2]; exact n5, by rw [g2]; exact n6, by rw [g2]; exact n7, by rw [g3]; exact e5,
    by rw [g3]; exact e6, by rw [g3]; exact e7⟩
  refine ⟨⟨some dn, some de⟩, g', by simp only [toDict, n1, e1], by simp only [fromDict, n2, e2, g1],
    (shows_iff g4 _).2 hview.symm, ?_, ?_⟩
  · intro o n
    have h1 := successors_ok g4 o n
    have h2 := predecessors_ok g4 o n
    rw [g2, g3, n4, e4] at h1 h2
    simp only [List.filter_map, List.map_map] at h1 h2
    exact ⟨h1, h2⟩
  · intro ops2 op
    have key : ∀ (g : Graph ι ν ε) t, GInv g → Cfg g → view g = t →
        GInv (run g ops2) ∧ Cfg (run g ops2) ∧ view (run g ops2) = ops2.foldl SG.next t := by
      induction ops2 with
      | nil => intro g t a b c; exact ⟨a, b, c⟩
      | cons op2 ops2 ih =>
        intro g t a b c
        exact ih _ _ (a.step op2) (b.step a op2) (by rw [(step_spec a b op2).2, c])
    obtain ⟨k1, k2, k3⟩ := key g' _ g4 hc' hview
    refine ⟨(shows_iff k1 _).2 k3.symm, ?_⟩
    rw [(step_spec k1 k2 op).1, k3]

/-- Non-vacuity of C20: items are their own encoding (a sum), edges lose their `info`; the demo graph comes back. -/
example : ∃ d g', toDict (fun _ => "Node") (fun _ => "Edge") (Sum.inl : Item Nat Unit Unit → _)
      (Sum.inr : Item Nat Unit (EdgeData Nat Unit) → Item Nat Unit Unit ⊕ Item Nat Unit (EdgeData Nat Unit)) (run {} demo) = .ok d ∧
    fromDict (fun _ => some ()) (fun _ => none)
      (fun | .inl x => .ok x | .inr _ => .error .typeError) (fun | .inr x => .ok x | .inl _ => .error .typeError) d = .ok g' ∧
    getSuccessors .id g' (some 1) = .ok [⟨2, (), ()⟩, ⟨2, (), ()⟩] := by
  refine ⟨_, _, rfl, rfl, by rfl⟩

/-! ## C88 — graphs built from existing piles -/

/-- **C88**.  `Graph(nodes=..., edges=...)` from consistent piles whose edges all connect given nodes yields a graph
showing exactly these nodes and edges, on which every later history behaves as specified.  Not covered: nothing checks the
end points, see `C88_dangling_limit`. -/
theorem C88_construct (n : Pile ι Unit ν) (e : Pile ι Unit (EdgeData ι ε)) (xs : List (Pile.Arg ι Unit ν))
    (es : List (Pile.Arg ι Unit (EdgeData ι ε)))
    (hn : Pile.mk' anySub xs (some [()]) false none = .ok n) (he : Pile.mk' anySub es (some [()]) false none = .ok e)
    (s : SG ι ν ε) (hsn : s.nodes.map some = xs) (hse : s.edges.map some = es)
    (hends : ∀ x ∈ s.edges, s.IsNode x.data.head ∧ s.IsNode x.data.tail) :
    ∃ g, mk' n e = .ok g ∧ Shows g s ∧
      ∀ ops op, Shows (run g ops) (ops.foldl SG.next s) ∧
        (step (run g ops) op).2 = ((ops.foldl SG.next s).step op).map Prod.snd := by
  obtain ⟨n1, n2, n3, n4, n5⟩ := Pile.mk'_inv anySub xs _ _ n hn
  obtain ⟨e1, e2, e3, e4, e5⟩ := Pile.mk'_inv anySub es _ _ e he
  have hnabs : Pile.abs n = s.nodes := (List.map_inj_right (fun _ _ h => Option.some.inj h)).1 (n2.trans hsn.symm)
  have heabs : Pile.abs e = s.edges := (List.map_inj_right (fun _ _ h => Option.some.inj h)).1 (e2.trans hse.symm)
  obtain ⟨g, g1, g2, g3, g4⟩ := mk'_ginv n1 e1 (by
    intro x hx
    rw [heabs] at hx
    have := hends x hx
    unfold SG.IsNode at this
    rwa [← hnabs, Pile.abs_ids n1] at this)
  have hview : view g = s := by
    cases s; simp only [view, g2, g3]; simp only at hnabs heabs; rw [hnabs, heabs]
  have hc : Cfg g := ⟨by rw [g2]; exact n3, by rw [g2]; exact n4, by rw [g2]; exact n5, by rw [g3]; exact e3,
    by rw [g3]; exact e4, by rw [g3]; exact e5⟩
  refine ⟨g, g1, (shows_iff g4 _).2 hview.symm, ?_⟩
  intro ops op
  have key : ∀ (g : Graph ι ν ε) t, GInv g → Cfg g → view g = t →
      GInv (run g ops) ∧ Cfg (run g ops) ∧ view (run g ops) = ops.foldl SG.next t := by
    induction ops with
    | nil => intro g t a b c; exact ⟨a, b, c⟩
    | cons op2 ops2 ih =>
      intro g t a b c
      exact ih _ _ (a.step op2) (b.step a op2) (by rw [(step_spec a b op2).2, c])
  obtain ⟨k1, k2, k3⟩ := key g _ g4 hc hview
  refine ⟨(shows_iff k1 _).2 k3.symm, ?_⟩
  rw [(step_spec k1 k2 op).1, k3]

/-- Piles of the witness: one node, one edge to a node that is not there. -/
def dangN : Pile Nat Unit Unit := { itemType := some [()], items := [(1, ⟨1, (), ()⟩)], order := [1] }
@[inherit_doc dangN] def dangE : Pile Nat Unit (EdgeData Nat Unit) :=
  { itemType := some [()], items := [(10, ⟨10, (), ⟨1, 9, ()⟩⟩)], order := [10] }

/-- Outside the domain of C88: an edge to an unknown node is accepted by the constructor, after which the edge
cannot be removed (`KeyError`, and the failed removal already changed the adjacency), `is_acyclic()` raises `KeyError`, and
`get_successors(1)` raises `NotFoundError`. -/
theorem C88_dangling_limit :
    ∃ g, mk' dangN dangE = .ok g ∧ (removeEdge g (some 10)).2 = .error .keyError ∧
      isAcyclic .id g 100 = .error .keyError ∧ getSuccessors .id g (some 1) = .error .notFound ∧
      getSuccessors .id (removeEdge g (some 10)).1 (some 1) = .ok [] :=
  ⟨_, rfl, by rfl, by rfl, by rfl, by rfl⟩

/-- Non-vacuity of `C88_construct`: two nodes and an edge between them. -/
example : ∃ n e, Pile.mk' anySub [some (⟨1, (), ()⟩ : Item Nat Unit Unit), some ⟨2, (), ()⟩] (some [()]) false none = .ok n ∧
    Pile.mk' anySub [some (⟨10, (), ⟨1, 2, ()⟩⟩ : Item Nat Unit (EdgeData Nat Unit))] (some [()]) false none = .ok e ∧
    ∀ x ∈ [(⟨10, (), ⟨1, 2, ()⟩⟩ : Item Nat Unit (EdgeData Nat Unit))], x.data.head ∈ [1, 2] ∧ x.data.tail ∈ [1, 2] :=
  ⟨_, _, rfl, rfl, by decide⟩

end Verif.Graph
