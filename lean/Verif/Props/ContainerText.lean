import Verif.Model.ContainerText
import Verif.Props.ElementText
import Verif.Props.ContainerKeys
import Verif.Props.FlowSerial
import Verif.Props.PileExact

/-!
# C276: a container is restored from its JSON text

Specification: `Container.SamePile` for piles (the same items in the same order, the same constraint, strictness and name), `Graph.Shows` for graphs and
`Flow.Same` for flows.
-/

set_option linter.unusedSectionVars false
set_option linter.unusedSimpArgs false
set_option linter.unusedVariables false

namespace Verif.ContainerText

open Json
open Element (arrange dictOf)
open Container (SamePile)

variable {ι γ δ ν ε : Type} [DecidableEq ι] [DecidableEq γ]

/-! ## Lemmas -/

theorem read_obj (sort : Bool) (d : Dict String J) (wf : d.WF) (k : String) :
    Dict.get? (dictOf (fun v => v) (arrange sort (d.map (fun kv => (kv.1.toList, kv.2))))) k = d.get? k := by
  obtain ⟨h1, _, h3⟩ := Element.dictOf_arrange sort (fun v : J => v) (fun v : J => v) d wf
  have e : d.map (fun kv => (kv.1, kv.2)) = d := by simp
  rw [e] at h1
  exact Element.get?_perm h3 wf h1 k

theorem loads_write (pretty : Bool) (v : J) : loads (write pretty 0 v) = some v := by
  have := C218_round_trip pretty v [] [] (by intro c hc; cases hc) (by intro c hc; cases hc)
  simpa using this

theorem namesOf_map (ts : List String) : namesOf (ts.map (fun s => J.str s.toList)) = some ts := by
  induction ts with
  | nil => rfl
  | cons s ts ih => simp [namesOf, strOf, ih]

theorem readTypes_typesJ (t : Option (List String)) : readTypes (some (typesJ t)) = .ok t := by
  cases t with
  | none => rfl
  | some ts => simp only [typesJ, readTypes, namesOf_map]

theorem readBool_jBool (b : Bool) : readBool (some (jBool b)) = .ok b := by cases b <;> rfl

theorem readName_optJ (n : Option String) : readName (some (optJ n)) = .ok n := by
  cases n with
  | none => rfl
  | some s => simp [optJ, readName]

theorem readProgName_objJ (sort : Bool) (d : Dict String J) (wf : d.WF) :
    readProgName (some (objJ sort d)) = (d.get? "progression_name").bind strOf := by
  simp only [objJ, readProgName, read_obj sort d wf]

theorem pileFields_wf (clsName : γ → String) (sort : Bool) (h : Head) (p : Pile ι γ δ) : (pileFields clsName sort h p).WF := by
  have : (pileFields clsName sort h p).keys = ["id", "created_at", "metadata", "item_type", "strict_type"] := rfl
  unfold Dict.WF
  rw [this]; decide

theorem pileFieldsItems_wf (clsName : γ → String) (sort : Bool) (h : Head) (p : Pile ι γ δ) (v : J) :
    Dict.WF (pileFields clsName sort h p ++ [("items", v)]) := by
  have : Dict.keys (pileFields clsName sort h p ++ [("items", v)]) = ["id", "created_at", "metadata", "item_type", "strict_type", "items"] := rfl
  unfold Dict.WF
  rw [this]; decide

/-- What `Pile.from_dict` reads from the members written by `model_dump`: no items. -/
theorem readPile_fields (clsName : γ → String) (sort : Bool) (h : Head) (p : Pile ι γ δ) (wf : h.metadata.WF) (n : Option String)
    (hn : (h.metadata.get? "progression_name").bind strOf = n) :
    readPile (dictOf (fun v => v) (arrange sort ((pileFields clsName sort h p).map (fun kv => (kv.1.toList, kv.2))))) =
      .ok ⟨p.itemType.map (fun ts => ts.map clsName), p.strict, n, []⟩ := by
  have g := read_obj sort _ (pileFields_wf clsName sort h p)
  have g1 : Dict.get? (pileFields clsName sort h p) "item_type" = some (typesJ (p.itemType.map (fun ts => ts.map clsName))) := rfl
  have g2 : Dict.get? (pileFields clsName sort h p) "strict_type" = some (jBool p.strict) := rfl
  have g3 : Dict.get? (pileFields clsName sort h p) "items" = none := rfl
  have g4 : Dict.get? (pileFields clsName sort h p) "metadata" = some (objJ sort h.metadata) := rfl
  simp only [readPile, g, g1, g2, g3, g4, readTypes_typesJ, readBool_jBool, readProgName_objJ sort _ wf, hn]
  rfl

theorem readPile_items (clsName : γ → String) (sort : Bool) (h : Head) (p : Pile ι γ δ) (l : List J) (wf : h.metadata.WF) (n : Option String)
    (hn : (h.metadata.get? "progression_name").bind strOf = n) :
    readPile (dictOf (fun v => v) (arrange sort (List.map (fun kv => (kv.1.toList, kv.2)) (pileFields clsName sort h p ++ [("items", J.arr l)])))) =
      .ok ⟨p.itemType.map (fun ts => ts.map clsName), p.strict, n, l⟩ := by
  have g := read_obj sort _ (pileFieldsItems_wf clsName sort h p (.arr l))
  have g1 : Dict.get? (pileFields clsName sort h p ++ [("items", .arr l)]) "item_type" = some (typesJ (p.itemType.map (fun ts => ts.map clsName))) := rfl
  have g2 : Dict.get? (pileFields clsName sort h p ++ [("items", .arr l)]) "strict_type" = some (jBool p.strict) := rfl
  have g3 : Dict.get? (pileFields clsName sort h p ++ [("items", .arr l)]) "items" = some (.arr l) := rfl
  have g4 : Dict.get? (pileFields clsName sort h p ++ [("items", .arr l)]) "metadata" = some (objJ sort h.metadata) := rfl
  simp only [readPile, g, g1, g2, g3, g4, readTypes_typesJ, readBool_jBool, readProgName_objJ sort _ wf, hn]
  rfl

theorem fromDict_empty {D : Type} (sub : γ → γ → Bool) (clsName : γ → String) (load : String → Option γ) (lionClass : D → Option String)
    (dec : D → Except Exc (Item ι γ δ)) (hload : ∀ c, load (clsName c) = some c) (t : Option (List γ)) (ht : t ≠ some []) (s : Bool) (n : Option String) :
    Pile.fromDict sub load lionClass dec ⟨t.map (fun ts => ts.map clsName), s, n, []⟩ = .ok { itemType := t, strict := s, pname := Pile.truthyName n } := by
  have hl : Pile.loadTypes load (Pile.itemTypeData (t.map (fun ts => ts.map clsName))) = .ok t := by
    cases t with
    | none => rfl
    | some ts =>
      cases ts with
      | nil => exact absurd rfl ht
      | cons c cs =>
        simp only [Option.map_some, List.map_cons, Pile.itemTypeData, Pile.loadTypes]
        have := Pile.loadAll_map load clsName (c :: cs) (fun c _ => hload c)
        rw [List.map_cons] at this
        rw [this]
  have hp : Pile.precheckAll sub load lionClass t s ([] : List D) = true := by
    cases t <;> rfl
  simp only [Pile.fromDict, hl, hp, Bool.true_eq_false, if_false, Pile.addDecoded]

/-- The user's metadata has no entry `progression_name`. -/
def NoProgName (h : Head) : Prop := h.metadata.get? "progression_name" = none

theorem tag_wf {h : Head} (wf : h.metadata.WF) (cls : String) : (h.tag cls).metadata.WF := Dict.set_wf wf _ _

theorem tag_noProg {h : Head} (wf : h.metadata.WF) (hn : NoProgName h) (cls : String) : NoProgName (h.tag cls) := by
  unfold NoProgName Head.tag
  simp only [Dict.get?_set]
  rw [if_neg (by decide)]
  exact hn

theorem noProg_bind {h : Head} (hn : NoProgName h) : (h.metadata.get? "progression_name").bind strOf = none := by rw [hn]; rfl

/-- Reading back what `to_json` of a pile, or of an object with a pile in a field, wrote. -/
theorem pile_text_empty (sub : γ → γ → Bool) (clsName : γ → String) (load : String → Option γ) (lionClass : J → Option String)
    (dec : J → Except Exc (Item ι γ δ)) (hload : ∀ c, load (clsName c) = some c) (sort : Bool) (h : Head) (wf : h.metadata.WF) (hn : NoProgName h)
    (p : Pile ι γ δ) (ht : p.itemType ≠ some []) :
    pileFromObj sub load lionClass dec (arrange sort ((pileFields clsName sort h p).map (fun kv => (kv.1.toList, kv.2)))) =
      .ok { itemType := p.itemType, strict := p.strict } := by
  simp only [pileFromObj, readPile_fields clsName sort h p wf none (noProg_bind hn), fromDict_empty sub clsName load lionClass dec hload _ ht]
  rfl

/-! ## Piles -/

/-- **C276** (partial, exact for piles).  For every reachable pile whose classes can be found again (the domain of C10) and whose own metadata has no entry
`progression_name`, compact or indented, keys sorted or not: `Pile.from_json(pile.to_json())` succeeds and gives a pile with the same type constraint but
without items and without name; so the pile comes back exactly if it has no items and no name.  Missing: all other piles, for which the claim is false
(`C276_violation`). -/
theorem C276_exact_partial (sub : γ → γ → Bool) (clsName : γ → String) (load : String → Option γ) (lionClass : J → Option String)
    (dec : J → Except Exc (Item ι γ δ)) (hload : ∀ c, load (clsName c) = some c) (cls : String) (pretty sort : Bool) (h : Head) (wf : h.metadata.WF)
    (hn : NoProgName h) (p : Pile ι γ δ) (hp : Pile.Reachable sub p) (n : Option String) (ht : p.itemType ≠ some []) :
    ∃ q, pileFromJson sub load lionClass dec (pileToJson clsName cls pretty sort h { p with pname := n }) = .ok q ∧
      Pile.iter q = .ok [] ∧ q.itemType = p.itemType ∧ q.strict = p.strict ∧ q.pname = none ∧
      (SamePile { p with pname := n } q ↔ Pile.len p = 0 ∧ n = none) := by
  have hi := hp.inv
  have hi' : Pile.Inv { p with pname := n } := ⟨hi.wf, hi.nodup, hi.mem_iff, hi.ids⟩
  refine ⟨{ itemType := p.itemType, strict := p.strict }, ?_, rfl, rfl, rfl, rfl, ?_⟩
  · simp only [pileFromJson, pileToJson, loads_write, objJ]
    exact pile_text_empty sub clsName load lionClass dec hload sort (h.tag cls) (tag_wf wf cls) (tag_noProg wf hn cls) { p with pname := n } ht
  · have hlen : Pile.len p = 0 ↔ p.order = [] := by
      unfold Pile.len
      constructor
      · intro h0
        rw [List.length_eq_zero_iff] at h0
        cases ho : p.order with
        | nil => rfl
        | cons u us =>
          have := (hi.mem_iff u).1 (by rw [ho]; simp)
          rw [h0] at this; cases this
      · intro h0
        rw [List.length_eq_zero_iff]
        cases hd : p.items with
        | nil => rfl
        | cons kv d =>
          have := (hi.mem_iff kv.1).2 (by rw [hd]; simp [Dict.keys])
          rw [h0] at this; cases this
    rw [hlen]
    constructor
    · rintro ⟨_, hk, _, _, hpn⟩
      exact ⟨hk.symm, hpn.symm⟩
    · rintro ⟨ho, rfl⟩
      refine ⟨⟨[], ?_, rfl⟩, ?_, rfl, rfl, rfl⟩
      · rw [Pile.iter_eq hi']
        have : Pile.abs { p with pname := none } = [] := by
          have h0 : (Pile.abs { p with pname := none }).map Item.id = [] := (Pile.abs_ids hi').trans ho
          exact List.map_eq_nil_iff.1 h0
        rw [this]
      · exact ho.symm

/-- C276 is false: whatever pile with an item is written, the pile that is read has none, and no error is raised. -/
theorem C276_violation (sub : γ → γ → Bool) (clsName : γ → String) (load : String → Option γ) (lionClass : J → Option String)
    (dec : J → Except Exc (Item ι γ δ)) (hload : ∀ c, load (clsName c) = some c) (cls : String) (pretty sort : Bool) (h : Head) (wf : h.metadata.WF)
    (hn : NoProgName h) (p : Pile ι γ δ) (hp : Pile.Reachable sub p) (ht : p.itemType ≠ some []) (hne : Pile.len p ≠ 0) :
    ∃ q, pileFromJson sub load lionClass dec (pileToJson clsName cls pretty sort h p) = .ok q ∧ Pile.len q = 0 := by
  obtain ⟨q, h1, h2, _⟩ := C276_exact_partial sub clsName load lionClass dec hload cls pretty sort h wf hn p hp p.pname ht
  refine ⟨{ itemType := p.itemType, strict := p.strict }, ?_, rfl⟩
  simp only [pileFromJson, pileToJson, loads_write, objJ]
  exact pile_text_empty sub clsName load lionClass dec hload sort (h.tag cls) (tag_wf wf cls) (tag_noProg wf hn cls) p ht

theorem named_wf {h : Head} (wf : h.metadata.WF) (n : Option String) : (h.named n).metadata.WF := by
  unfold Head.named
  split
  · exact Dict.set_wf wf _ _
  · exact wf

theorem named_prog {h : Head} (hn : NoProgName h) (n : Option String) :
    ((h.named n).metadata.get? "progression_name").bind strOf = Pile.truthyName n := by
  unfold Head.named
  split
  · next s hs => rw [hs]; simp [Dict.get?_set, strOf]
  · next hs => rw [hs]; exact noProg_bind hn

/-- **C276** (partial, what does hold).  The text of `pile.to_dict(mode="json")` is read back by `Pile.from_json` as the same pile, on the domain of C10. -/
theorem C276_dict_text_partial (sub : γ → γ → Bool) (clsName : γ → String) (load : String → Option γ) (lionClass : J → Option String) (enc : Item ι γ δ → J)
    (dec : J → Except Exc (Item ι γ δ)) (hdec : ∀ x, dec (enc x) = .ok x) (hcls : ∀ x, lionClass (enc x) = some (clsName x.cls))
    (hload : ∀ c, load (clsName c) = some c) (cls : String) (pretty sort : Bool) (h : Head) (wf : h.metadata.WF)
    (hn : NoProgName h) (p : Pile ι γ δ) (hp : Pile.Reachable sub p) (n : Option String) (hname : n ≠ some "") (ht : p.itemType ≠ some []) :
    ∃ s q, pileDictText clsName cls enc pretty sort h { p with pname := n } = .ok s ∧ pileFromJson sub load lionClass dec s = .ok q ∧
      SamePile { p with pname := n } q := by
  have hname' : (n = none ∧ (none : Option String) = none) ∨ ∃ s, n = some s ∧ s ≠ "" := by
    cases n with
    | none => exact Or.inl ⟨rfl, rfl⟩
    | some s => exact Or.inr ⟨s, rfl, fun e => hname (by rw [e])⟩
  obtain ⟨d, q, l, h1, h2, h3, h4, h5, h6, h7, h8⟩ := Pile.C10_round_trip sub clsName load enc dec lionClass none p hp n hdec (fun x => Or.inr (hcls x)) hload
    ht hname'
  refine ⟨write pretty 0 (objJ sort (pileFields clsName sort ((h.tag cls).named n) { p with pname := n } ++ [("items", .arr (l.map enc))])), q,
    (by simp only [pileDictText, h3]), ?_, ⟨l, h3, h4⟩, h5, h6, h7, h8⟩
  simp only [Pile.toDict, h3, Except.ok.injEq] at h1
  subst h1
  simp only [pileFromJson, loads_write, objJ, pileFromObj]
  rw [readPile_items clsName sort _ _ _ (named_wf (tag_wf wf cls) n) (Pile.truthyName n) (named_prog (tag_noProg wf hn cls) n)]
  simpa using h2

/-! ## Graphs and flows -/

theorem graphFields_wf (clsN clsE : Unit → String) (sort : Bool) (h hn he : Head) (g : Graph ι ν ε) :
    Dict.WF (headFields sort h ++ [("nodes", objJ sort (pileFields clsN sort hn g.nodes)), ("edges", objJ sort (pileFields clsE sort he g.edges))]) := by
  have : Dict.keys (headFields sort h ++ [("nodes", objJ sort (pileFields clsN sort hn g.nodes)), ("edges", objJ sort (pileFields clsE sort he g.edges))]) =
      ["id", "created_at", "metadata", "nodes", "edges"] := rfl
  unfold Dict.WF
  rw [this]; decide

/-- **C276** (partial, exact for graphs).  For every reachable graph `Graph.from_json(graph.to_json())` succeeds and gives a graph without nodes and edges; so
the graph comes back exactly if it had none. -/
theorem C276_graph_exact_partial (clsN clsE : Unit → String) (load : String → Option Unit) (lionClass : J → Option String)
    (decN : J → Except Exc (Item ι Unit ν)) (decE : J → Except Exc (Item ι Unit (EdgeData ι ε))) (hN : ∀ c, load (clsN c) = some c)
    (hE : ∀ c, load (clsE c) = some c) (cls : String) (pretty sort : Bool) (h hn he : Head) (wf : h.metadata.WF) (wn : hn.metadata.WF) (we : he.metadata.WF)
    (pn : NoProgName hn) (pe : NoProgName he) (ops : List (Graph.Op ι ν ε)) (s : Digraph.SG ι ν ε) (hs : Graph.Shows (Graph.run {} ops) s) :
    ∃ g', graphFromJson load lionClass decN decE (graphToJson clsN clsE cls pretty sort h hn he (Graph.run {} ops)) = .ok g' ∧
      Graph.Shows g' ⟨[], []⟩ ∧ (Graph.Shows g' s ↔ s.nodes = [] ∧ s.edges = []) := by
  obtain ⟨hg, hc⟩ := Graph.run_ok ops (Graph.ginv_empty (ν := ν) (ε := ε)) Graph.cfg_empty
  refine ⟨{}, ?_, ⟨rfl, rfl⟩, ?_⟩
  · have g := read_obj sort _ (graphFields_wf clsN clsE sort (h.tag cls) hn he (Graph.run ({} : Graph ι ν ε) ops))
    have g1 : ∀ (x y : J), Dict.get? (headFields sort (h.tag cls) ++ [("nodes", x), ("edges", y)]) "nodes" = some x := fun _ _ => rfl
    have g2 : ∀ (x y : J), Dict.get? (headFields sort (h.tag cls) ++ [("nodes", x), ("edges", y)]) "edges" = some y := fun _ _ => rfl
    simp only [graphFromJson, graphToJson, loads_write]
    simp only [objJ] at g ⊢
    simp only [graphFromObj, g, g1, g2, fieldPile,
      pile_text_empty Graph.anySub clsN load lionClass decN hN sort hn wn pn _ (show (Graph.run ({} : Graph ι ν ε) ops).nodes.itemType ≠ some [] by rw [hc.nt]; simp),
      pile_text_empty Graph.anySub clsE load lionClass decE hE sort he we pe _ (show (Graph.run ({} : Graph ι ν ε) ops).edges.itemType ≠ some [] by rw [hc.et]; simp),
      hc.nt, hc.et, hc.ns, hc.es]
    rfl
  · constructor
    · rintro ⟨a, b⟩
      have e1 : Pile.iter (({} : Graph ι ν ε).nodes) = .ok [] := rfl
      have e2 : Pile.iter (({} : Graph ι ν ε).edges) = .ok [] := rfl
      rw [e1] at a; rw [e2] at b
      cases s
      simp only [Except.ok.injEq] at a b
      exact ⟨a.symm, b.symm⟩
    · rintro ⟨a, b⟩
      cases s
      simp only at a b
      subst a b
      exact ⟨rfl, rfl⟩

theorem flowFields_wf (sort : Bool) (h : Head) (x y z : J) : Dict.WF (headFields sort h ++ [("name", x), ("progressions", y), ("items", z)]) := by
  have : Dict.keys (headFields sort h ++ [("name", x), ("progressions", y), ("items", z)]) = ["id", "created_at", "metadata", "name", "progressions", "items"] := rfl
  unfold Dict.WF
  rw [this]; decide

/-- **C276** (partial, exact for flows).  For every flow built with distinct names, after any history of calls `Flow.from_json(flow.to_json())` succeeds and gives a flow with the same name and
the same type constraint, but without items and without progressions; so the flow comes back exactly if it had neither. -/
theorem C276_flow_exact_partial (sub : γ → γ → Bool) (clsName : γ → String) (load : String → Option γ) (lionClass : J → Option String)
    (dec : J → Except Exc (Item ι γ δ)) (decP : J → Except Exc (Flow.Prog ι)) (hload : ∀ c, load (clsName c) = some c) (cls : String) (pretty sort : Bool)
    (h hp hi : Head) (wf : h.metadata.WF) (wp : hp.metadata.WF) (wi : hi.metadata.WF) (pp : NoProgName hp) (pi : NoProgName hi)
    (xs : List (Pile.Arg ι γ δ)) (t : Option (List γ)) (st : Bool) (ps : List (Flow.Prog ι)) (f0 : Flow ι γ δ) (hb : Flow.Built sub xs t st ps f0)
    (hd : Flow.DistinctNames ps) (ht : t ≠ some []) (ops : List (Flow.Op ι γ δ)) (name : Option String) :
    ∃ g, flowFromJson sub load lionClass dec decP (flowToJson clsName cls pretty sort h hp hi name (Flow.run sub f0 ops)) = .ok (g, name) ∧
      Pile.iter g.items = .ok [] ∧ Pile.iter g.progs = .ok [] ∧ g.items.itemType = t ∧ g.items.strict = st ∧
      (Flow.Same (Flow.run sub f0 ops) g ↔ Pile.iter (Flow.run sub f0 ops).items = .ok [] ∧ Pile.iter (Flow.run sub f0 ops).progs = .ok []) := by
  obtain ⟨c1, c2, c3, _, c4, c5, c6⟩ := hb.cfg
  obtain ⟨q1, q2⟩ := Flow.cfg_run sub ops f0
  have hg := (hb.good hd).run sub ops
  generalize hf : Flow.run sub f0 ops = f at *
  have t1 : f.progs.itemType = none := by rw [q1.1, c1]
  have t2 : f.items.itemType = t := by rw [q2.1, c4]
  have t3 : f.items.strict = st := by rw [q2.2.1, c5]
  refine ⟨{ items := { itemType := t, strict := st }, progs := { itemType := none, strict := f.progs.strict }, names := [] }, ?_, rfl, rfl, rfl, rfl, ?_⟩
  · have g := fun x y z => read_obj sort _ (flowFields_wf sort (h.tag cls) x y z)
    have g1 : ∀ (x y z : J), Dict.get? (headFields sort (h.tag cls) ++ [("name", x), ("progressions", y), ("items", z)]) "name" = some x := fun _ _ _ => rfl
    have g2 : ∀ (x y z : J), Dict.get? (headFields sort (h.tag cls) ++ [("name", x), ("progressions", y), ("items", z)]) "progressions" = some y := fun _ _ _ => rfl
    have g3 : ∀ (x y z : J), Dict.get? (headFields sort (h.tag cls) ++ [("name", x), ("progressions", y), ("items", z)]) "items" = some z := fun _ _ _ => rfl
    simp only [flowFromJson, flowToJson, loads_write]
    simp only [objJ] at g ⊢
    simp only [flowFromObj, g, g1, g2, g3, fieldPile, readName_optJ,
      pile_text_empty Flow.anySub (fun _ => "") (fun _ => some ()) (fun _ => none) decP (fun _ => rfl) sort hp wp pp f.progs (by rw [t1]; simp),
      pile_text_empty sub clsName load lionClass dec hload sort hi wi pi f.items (by rw [t2]; exact ht), t1, t2, t3]
    rfl
  · have e1 : Pile.iter ({ itemType := t, strict := st } : Pile ι γ δ) = .ok [] := rfl
    have e2 : Pile.iter ({ itemType := none, strict := f.progs.strict } : Pile ι Unit (ProgData ι)) = .ok [] := rfl
    constructor
    · rintro ⟨⟨I, i1, i2⟩, ⟨L, l1, l2⟩, _, _, _⟩
      rw [e1] at i2; rw [e2] at l2
      cases i2; cases l2
      exact ⟨i1, l1⟩
    · rintro ⟨i1, l1⟩
      have habs : Pile.abs f.progs = [] := by
        rw [Pile.iter_eq hg.piles.progs] at l1
        cases h0 : Pile.abs f.progs with
        | nil => rfl
        | cons x l => rw [h0] at l1; cases l1
      refine ⟨⟨[], i1, e1⟩, ⟨[], l1, e2⟩, t2.symm, t3.symm, fun k => Flow.getProgression_congr (fun n => ?_) (Flow.get?_of_abs hg.piles.progs ?_ ?_) k⟩
      · rw [← Flow.buildNames_get? hg.piles hg.names n, habs]; rfl
      · exact Pile.inv_empty _ _ _
      · rw [habs]; rfl

/-! ## A concrete case -/

def sampleHead : Head := ⟨"u1", "2025-01-01T00:00:00Z", [("note", .str "x".toList)]⟩

def samplePile : Pile Nat Nat Nat := { items := [(7, ⟨7, 2, 0⟩)], order := [7] }

theorem samplePile_reachable : Pile.Reachable (fun _ _ => true) samplePile :=
  ⟨[some ⟨7, 2, 0⟩], none, false, samplePile, [], by decide, rfl⟩

/-- The hypotheses of C276 are met by a pile with an item; its text has the class tag and no items. -/
example : sampleHead.metadata.WF ∧ NoProgName sampleHead ∧ Pile.len samplePile = 1 ∧
    String.ofList (pileToJson (fun _ : Nat => "m.C") "lionherd_core.base.pile.Pile" false false sampleHead samplePile) =
      "{\"id\":\"u1\",\"created_at\":\"2025-01-01T00:00:00Z\",\"metadata\":{\"note\":\"x\",\"lion_class\":\"lionherd_core.base.pile.Pile\"},\"item_type\":null,\"strict_type\":false}" :=
  ⟨by unfold Dict.WF; decide, rfl, by decide, by decide +kernel⟩

end Verif.ContainerText
