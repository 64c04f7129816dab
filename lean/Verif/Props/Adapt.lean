import Verif.Model.Adapt
import Verif.Props.ContainerKeys
import Verif.Props.ElementSample

/-!
# C277: `adapt_from` reads what `adapt_to` wrote

Specification: an adapter is lossless if it gives back the dicts it was given.
-/

set_option linter.unusedSectionVars false
set_option linter.unusedSimpArgs false
set_option linter.unusedVariables false

namespace Verif.Adapt

open Verif.Flow (KPile metaName metaFound)
open Verif.Container

variable {ι γ δ ν ε α φ : Type} [DecidableEq ι] [DecidableEq γ]

/-- The adapter gives back what it was given. -/
def Lossless {D O : Type} (A : Adapter D O) : Prop := ∀ d, A.read (A.write d) = .ok d

/-! ## Nodes -/

/-- **C277** (nodes).  With a lossless adapter and default arguments on both sides, every element of the domain of C76 comes back. -/
theorem C277_node {O : Type} (A : Adapter (Element.Data ι α) O) (hA : Lossless A) (W : Element.World ι γ α φ) (L : Element.Laws W)
    (fresh : Element.Fresh ι) (cs : List γ) (B : γ) (x : Element.Elem ι γ α φ) (g : Element.Good W x .db) (hr : Element.Reachable W cs B x.cls)
    (hk : "node_metadata" ∉ W.fieldNames x.cls) :
    ∃ o y, nodeAdaptTo A W none x = .ok o ∧ nodeAdaptFrom A W (Element.registerAll W cs) fresh B {} o = .ok y ∧ Element.Same y x := by
  obtain ⟨d, y, h1, h2, h3⟩ := Element.C76_round_trip W L fresh cs B x .db none none none g (by rintro ⟨h, _⟩; cases h)
    ⟨by decide, by decide, hk⟩ (Or.inr ⟨rfl, Or.inr rfl⟩) hr
  refine ⟨A.write d, y, ?_, ?_, h3⟩
  · simp only [nodeAdaptTo, outKw, OutKw.modeArg, Option.getD_some, h1]
  · simp only [nodeAdaptFrom, hA d, h2]

/-! ## Piles -/

theorem pileAdapt_iff {D O : Type} (A : Adapter (KPile (KItem D)) O) (hA : Lossless A) (sub : γ → γ → Bool) (clsName : γ → String) (load : String → Option γ)
    (enc : Item ι γ δ → D) (dec : D → Except Exc (Item ι γ δ)) (lionClass : D → Option String) (p : Pile ι γ δ) (ko : Option OutKw) (ki : InKw)
    (P : Pile ι γ δ → Prop) :
    (∃ o q, pileAdaptTo A clsName enc ko p = .ok o ∧ pileAdaptFrom A sub load lionClass dec ki o = .ok q ∧ P q) ↔
    ∃ d q, pileToDict clsName enc none (outKw ko).modeArg (outKw ko).metaKey (outKw ko).itemKey p = .ok d ∧
      pileFromDict sub load lionClass dec ki.metaKey ki.itemKey d = .ok q ∧ P q := by
  unfold pileAdaptTo
  cases hd : pileToDict clsName enc none (outKw ko).modeArg (outKw ko).metaKey (outKw ko).itemKey p with
  | error e => simp
  | ok d =>
    simp only [Except.ok.injEq]
    constructor
    · rintro ⟨_, q, rfl, h2, h3⟩
      refine ⟨d, q, rfl, ?_, h3⟩
      simpa only [pileAdaptFrom, hA d] using h2
    · rintro ⟨_, q, rfl, h2, h3⟩
      exact ⟨_, q, rfl, by simpa only [pileAdaptFrom, hA d] using h2, h3⟩

/-- **C277** (partial, exact for piles).  With a lossless adapter, a pile of the domain of C213 comes back from `adapt_from(adapt_to(..))` exactly if the
arguments of `adapt_from` name the keys that `adapt_to` used: with default arguments of `adapt_to` (mode "db"), exactly if `adapt_from` is given
`adapt_kw={"meta_key": "node_metadata"}`.  Missing: the default arguments of `adapt_from` (`C277_violation`). -/
theorem C277_exact_partial {D O : Type} (A : Adapter (KPile (KItem D)) O) (hA : Lossless A) (sub : γ → γ → Bool) (clsName : γ → String)
    (load : String → Option γ) (enc : Item ι γ δ → D) (dec : D → Except Exc (Item ι γ δ)) (lionClass : D → Option String)
    (p : Pile ι γ δ) (h : Pile.Reachable sub p) (n : Option String) (hdec : ∀ x, dec (enc x) = .ok x) (hcls : ∀ x, lionClass (enc x) = some (clsName x.cls))
    (hload : ∀ c, load (clsName c) = some c) (hne : p.itemType ≠ some []) (hname : n ≠ some "") (ki : InKw) :
    ((∃ o q, pileAdaptTo A clsName enc none { p with pname := n } = .ok o ∧ pileAdaptFrom A sub load lionClass dec ki o = .ok q ∧
        SamePile { p with pname := n } q) ↔ ki.metaKey = some "node_metadata") ∧
    ∀ ko : OutKw, (∃ o q, pileAdaptTo A clsName enc (some ko) { p with pname := n } = .ok o ∧ pileAdaptFrom A sub load lionClass dec ki o = .ok q ∧
        SamePile { p with pname := n } q) ↔
      Finds (ko.mode.getD .python) ko.metaKey ki.metaKey ∧ (Pile.keys p = [] ∨ ItemFinds ko.itemKey ki.itemKey) ∧
        ¬ (ko.mode = some .db ∧ ko.metaKey = some "" ∧ n ≠ none) := by
  refine ⟨?_, fun ko => ?_⟩
  · rw [pileAdapt_iff A hA, C213_keys sub clsName load enc dec lionClass p h n hdec hcls hload hne hname]
    simp only [outKw, OutKw.modeArg, Option.getD_some, Finds, ItemFinds]
    constructor
    · rintro ⟨⟨_, h1⟩, _⟩
      exact h1 trivial trivial
    · intro h1
      refine ⟨⟨?_, fun _ _ => h1⟩, Or.inr ?_, ?_⟩
      · intro k hk; cases hk
      · intro k hk; cases hk
      · rintro ⟨_, hk, _⟩; cases hk
  · rw [pileAdapt_iff A hA, C213_keys sub clsName load enc dec lionClass p h n hdec hcls hload hne hname]
    have e : (ko.mode.getD .python = .db) ↔ ko.mode = some .db := by
      cases ko.mode with
      | none => simp
      | some m => simp
    simp only [outKw, OutKw.modeArg, e]

/-- C277 is false for piles: with default arguments on both sides, `Pile.adapt_from` raises on everything `Pile.adapt_to` writes. -/
theorem C277_violation {D O : Type} (A : Adapter (KPile (KItem D)) O) (hA : Lossless A) (sub : γ → γ → Bool) (clsName : γ → String)
    (load : String → Option γ) (enc : Item ι γ δ → D) (dec : D → Except Exc (Item ι γ δ)) (lionClass : D → Option String) (p : Pile ι γ δ) (o : O)
    (ho : pileAdaptTo A clsName enc none p = .ok o) : ∃ e, pileAdaptFrom A sub load lionClass dec {} o = .error e := by
  unfold pileAdaptTo at ho
  split at ho
  · cases ho
  · next d hd =>
    cases ho
    obtain ⟨e, he⟩ := C213_db_violation sub clsName load enc dec lionClass none p none none none (by simp) d hd
    exact ⟨e, by simp only [pileAdaptFrom, hA d]; exact he⟩

/-- C277, failures: an exception of the adapter comes out of `adapt_from` unchanged, for nodes, piles and graphs; nothing is made up
from a document that could not be read. -/
theorem C277_adapter_fails {D O : Type} (o : O) (e : Exc) (kw : InKw) :
    (∀ (A : Adapter (Element.Data ι α) O) (W : Element.World ι γ α φ) (R : Element.Registry γ) (fresh : Element.Fresh ι) (B : γ),
      A.read o = .error e → nodeAdaptFrom A W R fresh B kw o = .error e) ∧
    (∀ (A : Adapter (KPile (KItem D)) O) (sub : γ → γ → Bool) (load : String → Option γ) (lionClass : D → Option String)
      (dec : D → Except Exc (Item ι γ δ)), A.read o = .error e → pileAdaptFrom A sub load lionClass dec kw o = .error e) ∧
    (∀ (A : Adapter (GraphK D) O) (load : String → Option Unit) (lionClass : D → Option String)
      (decN : D → Except Exc (Item ι Unit ν)) (decE : D → Except Exc (Item ι Unit (EdgeData ι ε))),
      A.read o = .error e → graphAdaptFrom A load lionClass decN decE kw o = .error e) := by
  refine ⟨?_, ?_, ?_⟩
  · intro A W R fresh B h; simp only [nodeAdaptFrom, h]
  · intro A sub load lc dec h; simp only [pileAdaptFrom, h]
  · intro A load lc dN dE h; simp only [graphAdaptFrom, h]

/-! ## Graphs -/

theorem named_none {mode : Element.Mode} {δ : Type} (p : Pile ι Unit δ) : named mode none p = p := by
  unfold named
  rw [if_pos ((nameKey_eq mode none).2 (by simp))]

/-- The key under which the piles and the graph itself store their metadata. -/
theorem graphToDict_ok {D : Type} {clsN clsE : Unit → String} {encN : Item ι Unit ν → D} {encE : Item ι Unit (EdgeData ι ε) → D} {mode : Element.Mode}
    {key ikey : Option String} {g : Graph ι ν ε} {d : GraphK D} (hd : graphToDict clsN clsE encN encE mode key ikey g = .ok d) :
    ∃ n e, Pile.toDict clsN (encK encN ikey) none g.nodes = .ok n ∧ Pile.toDict clsE (encK encE ikey) none g.edges = .ok e ∧
      d = ⟨metaName mode key, ⟨metaName mode none, n⟩, ⟨metaName mode none, e⟩⟩ := by
  simp only [graphToDict, pileToDict, named_none] at hd
  cases hn : Pile.toDict clsN (encK encN ikey) none g.nodes with
  | error e => rw [hn] at hd; cases hd
  | ok n =>
    rw [hn] at hd
    simp only at hd
    cases he : Pile.toDict clsE (encK encE ikey) none g.edges with
    | error e => rw [he] at hd; cases hd
    | ok e =>
      rw [he] at hd
      cases hd
      exact ⟨n, e, rfl, rfl, rfl⟩

/-- Modes and keys of a graph, with different keys for writing and reading (sharpens C214). -/
theorem graph_keys {D : Type} (clsN clsE : Unit → String) (load : String → Option Unit) (lionClass : D → Option String)
    (encN : Item ι Unit ν → D) (decN : D → Except Exc (Item ι Unit ν))
    (encE : Item ι Unit (EdgeData ι ε) → D) (decE : D → Except Exc (Item ι Unit (EdgeData ι ε))) (f : ε → ε)
    (hN : ∀ c, load (clsN c) = some c) (hE : ∀ c, load (clsE c) = some c)
    (hdN : ∀ x, decN (encN x) = .ok x) (hdE : ∀ e, decE (encE e) = .ok (Graph.strip f e))
    (ops : List (Graph.Op ι ν ε)) (s : Digraph.SG ι ν ε) (hs : Graph.Shows (Graph.run {} ops) s)
    (mode : Element.Mode) (key ikey key' ikey' : Option String) :
    (∃ d g', graphToDict clsN clsE encN encE mode key ikey (Graph.run {} ops) = .ok d ∧
      graphFromDict load lionClass decN decE key' ikey' d = .ok g' ∧ Graph.Shows g' ⟨s.nodes, s.edges.map (Graph.strip f)⟩) ↔
    Finds mode key key' ∧ (mode = .db → ikey' = some "node_metadata") ∧ (s.nodes = [] ∨ ItemFinds ikey ikey') := by
  have hF : Finds mode none ikey' ↔ (mode = .db → ikey' = some "node_metadata") := by
    unfold Finds
    constructor
    · rintro ⟨_, h⟩ hm; exact h hm rfl
    · intro h
      exact ⟨fun k hk => (by cases hk), fun hm _ => h hm⟩
  rw [← hF]
  obtain ⟨hg, hc⟩ := Graph.run_ok ops (Graph.ginv_empty (ν := ν) (ε := ε)) Graph.cfg_empty
  have hview := (Graph.shows_iff hg s).1 hs
  constructor
  · rintro ⟨d, g', h1, h2, h3⟩
    obtain ⟨n, e, hn, he, rfl⟩ := graphToDict_ok h1
    simp only [graphFromDict] at h2
    have hr2 : readable ikey' (metaName mode none) = true := by
      cases hr : readable ikey' (metaName mode none) with
      | true => rfl
      | false =>
        rw [fromDict_unreadable Graph.anySub load lionClass decN ikey' ikey' ⟨metaName mode none, n⟩ hr] at h2
        cases h2
    rw [fromDict_readable Graph.anySub load lionClass decN ikey' ikey' ⟨metaName mode none, n⟩ hr2,
      fromDict_readable Graph.anySub load lionClass decE ikey' ikey' ⟨metaName mode none, e⟩ hr2] at h2
    simp only at h2
    cases hqn : Pile.fromDict Graph.anySub load (lionClassK lionClass) (decK decN ikey') n with
    | error x => rw [hqn] at h2; cases h2
    | ok qn =>
      rw [hqn] at h2
      simp only at h2
      refine ⟨?_, (readable_iff ..).1 hr2, ?_⟩
      · cases hr : readable key' (metaName mode key) with
        | true => exact (readable_iff ..).1 hr
        | false =>
          rw [hr] at h2
          split at h2
          · cases h2
          · simp at h2
      · by_cases hf : ItemFinds ikey ikey'
        · exact Or.inr hf
        · refine Or.inl (Classical.byContradiction fun hk => ?_)
          have hitems : n.items = (Pile.abs (Graph.run ({} : Graph ι ν ε) ops).nodes).map (encK encN ikey) := by
            simp only [Pile.toDict, Pile.iter_eq hg.nodes] at hn
            cases hn; rfl
          refine fromDict_items_fail Graph.anySub load (lionClassK lionClass) (decK decN ikey') n ?_ ?_ qn hqn
          · rw [hitems]
            intro e
            apply hk
            rw [hview]
            exact List.map_eq_nil_iff.1 e
          · rw [hitems]
            intro x hx
            obtain ⟨y, _, rfl⟩ := List.mem_map.1 hx
            exact decK_fails encN decN ikey ikey' hf y
  · rintro ⟨h1, h2, h3⟩
    have hr1 := (readable_iff mode key key').2 h1
    have hr2 := (readable_iff mode none ikey').2 h2
    -- the decoder of items may be taken to know the key
    have main : ∀ i', ItemFinds ikey i' → ∃ n e g', Pile.toDict clsN (encK encN ikey) none (Graph.run ({} : Graph ι ν ε) ops).nodes = .ok n ∧
        Pile.toDict clsE (encK encE ikey) none (Graph.run ({} : Graph ι ν ε) ops).edges = .ok e ∧
        Graph.fromDict load (lionClassK lionClass) (decK decN i') (decK decE i') ⟨some n, some e⟩ = .ok g' ∧
        Graph.Shows g' ⟨s.nodes, s.edges.map (Graph.strip f)⟩ := by
      intro i' hi'
      obtain ⟨d, g', c1, c2, c3, _⟩ := Graph.C20_round_trip clsN clsE load (lionClassK lionClass) (encK encN ikey) (decK decN i')
        (encK encE ikey) (decK decE i') f hN hE (fun x => by rw [decK_encK encN decN ikey i' hi', hdN])
        (fun x => by rw [decK_encK encE decE ikey i' hi', hdE]) ops s hs
      simp only [Graph.toDict] at c1
      cases hn : Pile.toDict clsN (encK encN ikey) none (Graph.run ({} : Graph ι ν ε) ops).nodes with
      | error x => rw [hn] at c1; cases c1
      | ok n =>
        rw [hn] at c1
        simp only at c1
        cases he : Pile.toDict clsE (encK encE ikey) none (Graph.run ({} : Graph ι ν ε) ops).edges with
        | error x => rw [he] at c1; cases c1
        | ok e =>
          rw [he] at c1
          cases c1
          exact ⟨n, e, g', rfl, rfl, c2, c3⟩
    have fin : ∀ n e g', Pile.toDict clsN (encK encN ikey) none (Graph.run ({} : Graph ι ν ε) ops).nodes = .ok n →
        Pile.toDict clsE (encK encE ikey) none (Graph.run ({} : Graph ι ν ε) ops).edges = .ok e →
        Graph.fromDict load (lionClassK lionClass) (decK decN ikey') (decK decE ikey') ⟨some n, some e⟩ = .ok g' →
        Graph.Shows g' ⟨s.nodes, s.edges.map (Graph.strip f)⟩ →
        ∃ d g', graphToDict clsN clsE encN encE mode key ikey (Graph.run {} ops) = .ok d ∧
          graphFromDict load lionClass decN decE key' ikey' d = .ok g' ∧ Graph.Shows g' ⟨s.nodes, s.edges.map (Graph.strip f)⟩ := by
      intro n e g' hn he hg' hsh
      refine ⟨⟨metaName mode key, ⟨metaName mode none, n⟩, ⟨metaName mode none, e⟩⟩, g', ?_, ?_, hsh⟩
      · simp only [graphToDict, pileToDict, named_none, hn, he]
      · rw [← hg']
        simp only [graphFromDict, fromDict_readable _ _ _ _ ikey' ikey' ⟨metaName mode none, _⟩ hr2, Graph.fromDict, Graph.pileFrom, hr1, if_true]
        rfl
    rcases h3 with h3 | h3
    · obtain ⟨n, e, g', c1, c2, c3, c4⟩ := main ikey (fun k hk _ _ _ => hk)
      have a1 : Pile.abs (Graph.run ({} : Graph ι ν ε) ops).nodes = [] := by rw [hview] at h3; exact h3
      have a2 : Pile.abs (Graph.run ({} : Graph ι ν ε) ops).edges = [] := by
        cases ha : Pile.abs (Graph.run ({} : Graph ι ν ε) ops).edges with
        | nil => rfl
        | cons y l =>
          have hy : y ∈ Pile.abs (Graph.run ({} : Graph ι ν ε) ops).edges := by rw [ha]; simp
          have := (hg.ends y.id y ((Graph.mem_abs_edge hg y).1 hy)).1
          have o : (Graph.run ({} : Graph ι ν ε) ops).nodes.order = [] := by rw [← Pile.abs_ids hg.nodes, a1]; rfl
          rw [o] at this; cases this
      have b1 : n.items = [] := by
        have c1' := c1
        simp only [Pile.toDict, Pile.iter_eq hg.nodes] at c1'
        cases c1'; rw [a1]; rfl
      have b2 : e.items = [] := by
        have c2' := c2
        simp only [Pile.toDict, Pile.iter_eq hg.edges] at c2'
        cases c2'; rw [a2]; rfl
      refine fin n e g' c1 c2 ?_ c4
      rw [← c3]
      simp only [Graph.fromDict, Graph.pileFrom, Pile.fromDict, b1, b2, Pile.addDecoded]
    · obtain ⟨n, e, g', c1, c2, c3, c4⟩ := main ikey' h3
      exact fin n e g' c1 c2 c3 c4

/-- **C277** (partial, exact for graphs).  With a lossless adapter and default arguments of `adapt_to`, a reachable graph comes back from `adapt_from` exactly if
that is given `adapt_kw={"meta_key": "node_metadata", "item_meta_key": "node_metadata"}`. -/
theorem C277_graph_exact_partial {D O : Type} (A : Adapter (GraphK D) O) (hA : Lossless A) (clsN clsE : Unit → String) (load : String → Option Unit)
    (lionClass : D → Option String) (encN : Item ι Unit ν → D) (decN : D → Except Exc (Item ι Unit ν))
    (encE : Item ι Unit (EdgeData ι ε) → D) (decE : D → Except Exc (Item ι Unit (EdgeData ι ε))) (f : ε → ε)
    (hN : ∀ c, load (clsN c) = some c) (hE : ∀ c, load (clsE c) = some c)
    (hdN : ∀ x, decN (encN x) = .ok x) (hdE : ∀ e, decE (encE e) = .ok (Graph.strip f e))
    (ops : List (Graph.Op ι ν ε)) (s : Digraph.SG ι ν ε) (hs : Graph.Shows (Graph.run {} ops) s) (ki : InKw) :
    (∃ o g', graphAdaptTo A clsN clsE encN encE none (Graph.run {} ops) = .ok o ∧
      graphAdaptFrom A load lionClass decN decE ki o = .ok g' ∧ Graph.Shows g' ⟨s.nodes, s.edges.map (Graph.strip f)⟩) ↔
    ki.metaKey = some "node_metadata" ∧ ki.itemKey = some "node_metadata" := by
  have h := graph_keys clsN clsE load lionClass encN decN encE decE f hN hE hdN hdE ops s hs .db none none ki.metaKey ki.itemKey
  have e : (Finds .db none ki.metaKey ∧ (Element.Mode.db = .db → ki.itemKey = some "node_metadata") ∧ (s.nodes = [] ∨ ItemFinds none ki.itemKey)) ↔
      ki.metaKey = some "node_metadata" ∧ ki.itemKey = some "node_metadata" := by
    constructor
    · rintro ⟨⟨_, a⟩, b, _⟩; exact ⟨a rfl rfl, b rfl⟩
    · rintro ⟨a, b⟩
      exact ⟨⟨fun k hk => (by cases hk), fun _ _ => a⟩, fun _ => b, Or.inr (fun k hk => (by cases hk))⟩
  rw [← e, ← h]
  constructor
  · rintro ⟨o, g', h1, h2, h3⟩
    unfold graphAdaptTo at h1
    split at h1
    · cases h1
    · next d hd =>
      cases h1
      exact ⟨d, g', hd, by simpa only [graphAdaptFrom, hA d] using h2, h3⟩
  · rintro ⟨d, g', h1, h2, h3⟩
    refine ⟨A.write d, g', ?_, by simpa only [graphAdaptFrom, hA d] using h2, h3⟩
    simp only [graphAdaptTo, outKw, OutKw.modeArg, Option.getD_some, h1]

/-- C277 is false for graphs: with default arguments on both sides, `Graph.adapt_from` raises on everything `Graph.adapt_to` writes. -/
theorem C277_graph_violation {D O : Type} (A : Adapter (GraphK D) O) (hA : Lossless A) (clsN clsE : Unit → String) (load : String → Option Unit)
    (lionClass : D → Option String) (encN : Item ι Unit ν → D) (decN : D → Except Exc (Item ι Unit ν))
    (encE : Item ι Unit (EdgeData ι ε) → D) (decE : D → Except Exc (Item ι Unit (EdgeData ι ε))) (g : Graph ι ν ε) (o : O)
    (ho : graphAdaptTo A clsN clsE encN encE none g = .ok o) : ∃ e, graphAdaptFrom A load lionClass decN decE {} o = .error e := by
  unfold graphAdaptTo at ho
  split at ho
  · cases ho
  · next d hd =>
    cases ho
    obtain ⟨e, he⟩ := C214_db_violation clsN clsE load lionClass encN decN encE decE g none none (Or.inl rfl) d hd
    exact ⟨e, by simp only [graphAdaptFrom, hA d]; exact he⟩

/-! ## Concrete cases -/

/-- An adapter that stores the dict as it is. -/
def idAdapter {D : Type} : Adapter D D := ⟨id, .ok⟩

/-- The hypotheses are met: a pile with one item is written; it comes back only with the key. -/
example : Lossless (idAdapter (D := KPile (KItem (Item Nat Nat Nat)))) ∧
    ∃ o q, pileAdaptTo idAdapter (fun c : Nat => String.ofList (List.replicate c 'a')) (id : Item Nat Nat Nat → _) none
        { items := [(7, ⟨7, 2, 0⟩)], order := [7], pname := some "main" } = .ok o ∧
      pileAdaptFrom idAdapter (fun _ _ => true) (fun s => some s.length) (fun x => some (String.ofList (List.replicate x.cls 'a'))) Except.ok
        { metaKey := some "node_metadata" } o = .ok q ∧ q.order = [7] ∧ q.pname = some "main" :=
  ⟨fun _ => rfl, _, _, rfl, rfl, by decide, by decide⟩

/-- The node of C76's example can be adapted. -/
example : Lossless (idAdapter (D := Element.Data Nat Nat)) ∧ Element.Good Element.sample Element.sampleNode .db ∧
    "node_metadata" ∉ Element.sample.fieldNames Element.sampleNode.cls := by
  refine ⟨fun _ => rfl, ⟨rfl, by decide, by decide, by decide, rfl, by decide, ?_, ?_⟩, by decide⟩
  · intro f y h
    simp only [Element.sampleNode, List.mem_cons, List.not_mem_nil, or_false, Prod.mk.injEq] at h
    obtain ⟨rfl, rfl⟩ := h
    rfl
  · intro _ k v _; rfl

end Verif.Adapt
