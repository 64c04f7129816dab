import Verif.Model.GraphCond
import Verif.Props.GraphSerial

/-!
# C282: questions about a graph that was read back

The specification speaks of walks (`Spec/Digraph.lean`): `Allowed` are the edges whose condition does not deny them.
-/

set_option linter.unusedSectionVars false
set_option linter.unusedSimpArgs false
set_option linter.unusedVariables false

namespace Verif.Graph
open Digraph

variable {ι ν ε : Type} [DecidableEq ι]

/-- The edges that may be used: all of them, or, with `check_conditions`, those without a condition and those whose condition says yes. -/
def allowed (check : Bool) (c : ε → Option Bool) (es : List (Item ι Unit (EdgeData ι ε))) : List (Item ι Unit (EdgeData ι ε)) :=
  es.filter (fun e => decide (check = true → c e.data.info ≠ some false))

theorem checkCondition_iff (c : ε → Option Bool) (x : ε) : checkCondition c x = true ↔ c x ≠ some false := by
  unfold checkCondition
  cases c x with
  | none => simp
  | some b => cases b <;> simp

theorem edgePasses_iff {g : Graph ι ν ε} (h : GInv g) (check : Bool) (c : ε → Option Bool) {e : Item ι Unit (EdgeData ι ε)}
    (he : e ∈ Pile.abs g.edges) : edgePasses check c g e.id = true ↔ (check = true → c e.data.info ≠ some false) := by
  have := (mem_abs_edge h e).1 he
  unfold edgePasses
  rw [this, ← checkCondition_iff]
  simp only [Option.map_some, Option.getD_some]
  cases check <;> cases checkCondition c e.data.info <;> simp

theorem passing_eq {g : Graph ι ν ε} (h : GInv g) (check : Bool) (c : ε → Option Bool) :
    passing g (edgePasses check c g) = allowed check c (Pile.abs g.edges) := by
  unfold passing allowed
  apply List.filter_congr
  intro e he
  have := edgePasses_iff h check c he
  by_cases k : (check = true → c e.data.info ≠ some false)
  · rw [this.2 k, decide_eq_true k]
  · rw [Bool.eq_false_iff.2 (fun hh => k (this.1 hh)), decide_eq_false k]

theorem find_spec {g : Graph ι ν ε} (h : GInv g) (o : SetOrder ι) (check : Bool) (c : ε → Option Bool) {a b : ι}
    (ha : (view g).IsNode a) (hb : (view g).IsNode b) {fuel : Nat} (hf : 2 * (view g).nodes.length ≤ fuel) :
    (∃ p, findPathCond o g check c (some a) (some b) fuel = some (.ok (some p)) ∧ Walk (allowed check c (view g).edges) a p b ∧
      ∀ p', Walk (allowed check c (view g).edges) a p' b → p.length ≤ p'.length) ∨
    (findPathCond o g check c (some a) (some b) fuel = some (.ok none) ∧ ∀ p, ¬ Walk (allowed check c (view g).edges) a p b) := by
  rw [isNode_iff h] at ha hb
  have hl : (view g).nodes.length = g.nodes.order.length := by rw [← Pile.abs_ids h.nodes]; simp [view]
  rw [hl] at hf
  have hct : ∀ n, n ∈ g.nodes.order → Pile.contains g.nodes (some n) = true :=
    fun n hn => (Dict.has_iff _ _).2 ((h.nodes.mem_iff _).1 hn)
  obtain ⟨r, h1, h2⟩ := bfsLoop_spec h o (edgePasses check c g) a b fuel [] 0 _ _ (bfs_start _ b ha) (by simpa using hf)
  have hfp : findPathCond o g check c (some a) (some b) fuel = some (.ok r) := by
    simp only [findPathCond, findPath, hct a ha, hct b hb]
    rw [if_neg (by simp)]
    exact h1
  have hp := passing_eq h check c
  cases r with
  | some p => 
    simp only [BfsPost] at h2
    rw [hp] at h2
    exact Or.inl ⟨p, hfp, h2.1, h2.2⟩
  | none =>
    simp only [BfsPost] at h2
    rw [hp] at h2
    exact Or.inr ⟨hfp, h2⟩

/-- Two answers of `find_path` say the same: both a path, of the same length, or both `None`. -/
def SameAnswer (r r' : Option (Except Exc (Option (List (Item ι Unit (EdgeData ι ε)))))) : Prop :=
  (∃ p p', r = some (.ok (some p)) ∧ r' = some (.ok (some p')) ∧ p.length = p'.length) ∨
  (r = some (.ok none) ∧ r' = some (.ok none))

/-- Two answers of `find_path` agree on whether there is a path. -/
def SameReach (r r' : Option (Except Exc (Option (List (Item ι Unit (EdgeData ι ε)))))) : Prop :=
  (∃ p p', r = some (.ok (some p)) ∧ r' = some (.ok (some p'))) ∨ (r = some (.ok none) ∧ r' = some (.ok none))

omit [DecidableEq ι] in
theorem walk_strip (f : ε → ε) {es : List (Item ι Unit (EdgeData ι ε))} : ∀ {p : List (Item ι Unit (EdgeData ι ε))} {a b : ι},
    Walk es a p b → Walk (es.map (strip f)) a (p.map (strip f)) b
  | [], _, _, h => h
  | e :: p, a, b, ⟨h1, h2, h3⟩ => ⟨List.mem_map.2 ⟨e, h1, rfl⟩, h2, walk_strip f h3⟩

omit [DecidableEq ι] in
theorem walk_unstrip (f : ε → ε) {es : List (Item ι Unit (EdgeData ι ε))} : ∀ {p : List (Item ι Unit (EdgeData ι ε))} {a b : ι},
    Walk (es.map (strip f)) a p b → ∃ q, Walk es a q b ∧ q.length = p.length
  | [], _, _, h => ⟨[], h, rfl⟩
  | e :: p, a, b, ⟨h1, h2, h3⟩ => by
    obtain ⟨y, hy, rfl⟩ := List.mem_map.1 h1
    obtain ⟨q, hq, hl⟩ := walk_unstrip f h3
    exact ⟨y :: q, ⟨hy, h2, hq⟩, by simp [hl]⟩

omit [DecidableEq ι] in
theorem walk_mono {es es' : List (Item ι Unit (EdgeData ι ε))} (h : ∀ e ∈ es, e ∈ es') :
    ∀ {p : List (Item ι Unit (EdgeData ι ε))} {a b : ι}, Walk es a p b → Walk es' a p b
  | [], _, _, k => k
  | _ :: _, _, _, ⟨h1, h2, h3⟩ => ⟨h _ h1, h2, walk_mono h h3⟩

omit [DecidableEq ι] in
theorem allowed_all (c : ε → Option Bool) (es : List (Item ι Unit (EdgeData ι ε))) : allowed false c es = es := by
  unfold allowed; simp

omit [DecidableEq ι] in
theorem allowed_strip (check : Bool) (c : ε → Option Bool) (f : ε → ε) (hf : ∀ x, c (f x) = none) (es : List (Item ι Unit (EdgeData ι ε))) :
    allowed check c (es.map (strip f)) = es.map (strip f) := by
  unfold allowed
  rw [List.filter_eq_self]
  intro e he
  obtain ⟨y, _, rfl⟩ := List.mem_map.1 he
  simp [strip, hf]

/-- Two searches say the same exactly if neither has a walk shorter than all of the other. -/
theorem sameAnswer_iff {g g' : Graph ι ν ε} (h : GInv g) (h' : GInv g') (o o' : SetOrder ι) (check check' : Bool) (c : ε → Option Bool) {a b : ι}
    (ha : (view g).IsNode a) (hb : (view g).IsNode b) (ha' : (view g').IsNode a) (hb' : (view g').IsNode b)
    {fuel fuel' : Nat} (hf : 2 * (view g).nodes.length ≤ fuel) (hf' : 2 * (view g').nodes.length ≤ fuel') :
    SameAnswer (findPathCond o g check c (some a) (some b) fuel) (findPathCond o' g' check' c (some a) (some b) fuel') ↔
    (∀ p, Walk (allowed check c (view g).edges) a p b → ∃ q, Walk (allowed check' c (view g').edges) a q b ∧ q.length ≤ p.length) ∧
    (∀ p, Walk (allowed check' c (view g').edges) a p b → ∃ q, Walk (allowed check c (view g).edges) a q b ∧ q.length ≤ p.length) := by
  rcases find_spec h o check c ha hb hf with ⟨p, e1, e2, e3⟩ | ⟨e1, e2⟩ <;>
    rcases find_spec h' o' check' c ha' hb' hf' with ⟨p', k1, k2, k3⟩ | ⟨k1, k2⟩ <;>
    rw [e1, k1] <;> unfold SameAnswer
  · constructor
    · intro hh
      rcases hh with ⟨x, y, hx, hy, hl⟩ | ⟨hx, _⟩
      · cases hx; cases hy
        exact ⟨fun q hq => ⟨p', k2, by have := e3 q hq; omega⟩, fun q hq => ⟨p, e2, by have := k3 q hq; omega⟩⟩
      · cases hx
    · intro ⟨h1, h2⟩
      obtain ⟨q, hq, hl⟩ := h1 p e2
      obtain ⟨q', hq', hl'⟩ := h2 p' k2
      have := k3 q hq
      have := e3 q' hq'
      exact Or.inl ⟨p, p', rfl, rfl, by omega⟩
  · constructor
    · intro hh
      rcases hh with ⟨x, y, hx, hy, hl⟩ | ⟨hx, _⟩
      · cases hy
      · cases hx
    · intro ⟨h1, h2⟩
      obtain ⟨q, hq, hl⟩ := h1 p e2
      exact absurd hq (k2 q)
  · constructor
    · intro hh
      rcases hh with ⟨x, y, hx, hy, hl⟩ | ⟨_, hx⟩
      · cases hx
      · cases hx
    · intro ⟨h1, h2⟩
      obtain ⟨q, hq, hl⟩ := h2 p' k2
      exact absurd hq (e2 q)
  · exact ⟨fun _ => ⟨fun p hp => absurd hp (e2 p), fun p hp => absurd hp (k2 p)⟩, fun _ => Or.inr ⟨rfl, rfl⟩⟩

/-- Two searches agree on reachability exactly if walks exist for both or for neither. -/
theorem sameReach_iff {g g' : Graph ι ν ε} (h : GInv g) (h' : GInv g') (o o' : SetOrder ι) (check check' : Bool) (c : ε → Option Bool) {a b : ι}
    (ha : (view g).IsNode a) (hb : (view g).IsNode b) (ha' : (view g').IsNode a) (hb' : (view g').IsNode b)
    {fuel fuel' : Nat} (hf : 2 * (view g).nodes.length ≤ fuel) (hf' : 2 * (view g').nodes.length ≤ fuel') :
    SameReach (findPathCond o g check c (some a) (some b) fuel) (findPathCond o' g' check' c (some a) (some b) fuel') ↔
    ((∃ p, Walk (allowed check c (view g).edges) a p b) ↔ ∃ p, Walk (allowed check' c (view g').edges) a p b) := by
  rcases find_spec h o check c ha hb hf with ⟨p, e1, e2, e3⟩ | ⟨e1, e2⟩ <;>
    rcases find_spec h' o' check' c ha' hb' hf' with ⟨p', k1, k2, k3⟩ | ⟨k1, k2⟩ <;>
    rw [e1, k1] <;> unfold SameReach
  · exact ⟨fun _ => ⟨fun _ => ⟨p', k2⟩, fun _ => ⟨p, e2⟩⟩, fun _ => Or.inl ⟨p, p', rfl, rfl⟩⟩
  · constructor
    · intro hh
      rcases hh with ⟨x, y, hx, hy⟩ | ⟨hx, _⟩
      · cases hy
      · cases hx
    · intro hh
      obtain ⟨q, hq⟩ := hh.1 ⟨p, e2⟩
      exact absurd hq (k2 q)
  · constructor
    · intro hh
      rcases hh with ⟨x, y, hx, hy⟩ | ⟨_, hx⟩
      · cases hx
      · cases hx
    · intro hh
      obtain ⟨q, hq⟩ := hh.2 ⟨p', k2⟩
      exact absurd hq (e2 q)
  · exact ⟨fun _ => ⟨fun ⟨p, hp⟩ => absurd hp (e2 p), fun ⟨p, hp⟩ => absurd hp (k2 p)⟩, fun _ => Or.inr ⟨rfl, rfl⟩⟩

/-- The graph that `from_dict` builds from what `to_dict` wrote is consistent and shows the nodes and the stripped edges. -/
theorem restored_ginv {D : Type} (clsN clsE : Unit → String) (load : String → Option Unit) (lionClass : D → Option String)
    (encN : Item ι Unit ν → D) (decN : D → Except Exc (Item ι Unit ν))
    (encE : Item ι Unit (EdgeData ι ε) → D) (decE : D → Except Exc (Item ι Unit (EdgeData ι ε))) (f : ε → ε)
    (hN : ∀ c, load (clsN c) = some c) (hE : ∀ c, load (clsE c) = some c)
    (hdN : ∀ x, decN (encN x) = .ok x) (hdE : ∀ e, decE (encE e) = .ok (strip f e))
    (ops : List (Op ι ν ε)) (d : GraphDict D) (g' : Graph ι ν ε)
    (hd : toDict clsN clsE encN encE (run {} ops) = .ok d) (hg : fromDict load lionClass decN decE d = .ok g') :
    GInv (run ({} : Graph ι ν ε) ops) ∧ GInv g' ∧
    view g' = ⟨(view (run ({} : Graph ι ν ε) ops)).nodes, (view (run ({} : Graph ι ν ε) ops)).edges.map (strip f)⟩ := by
  obtain ⟨h, hc⟩ := run_ok ops (ginv_empty (ν := ν) (ε := ε)) cfg_empty
  obtain ⟨dn, qn, n1, n2, n3, n4, n5, n6, n7⟩ := pile_round_trip clsN load lionClass encN decN id hN (by simpa using hdN)
    (fun _ => rfl) h.nodes hc.nt hc.ns hc.np
  obtain ⟨de, qe, e1, e2, e3, e4, e5, e6, e7⟩ := pile_round_trip clsE load lionClass encE decE (strip f) hE hdE
    (fun _ => rfl) h.edges hc.et hc.es hc.ep
  rw [List.map_id] at n4
  have hno : qn.order = (run ({} : Graph ι ν ε) ops).nodes.order := by rw [← Pile.abs_ids n3, n4, Pile.abs_ids h.nodes]
  obtain ⟨g2', g1, g2, g3, g4⟩ := mk'_ginv n3 e3 (by
    intro x hx
    rw [e4] at hx
    obtain ⟨y, hy, rfl⟩ := List.mem_map.1 hx
    rw [hno]
    exact h.ends y.id y ((mem_abs_edge h y).1 hy))
  have k1 : toDict clsN clsE encN encE (run ({} : Graph ι ν ε) ops) = .ok ⟨some dn, some de⟩ := by simp only [toDict, n1, e1]
  rw [k1] at hd
  cases hd
  have k2 : fromDict load lionClass decN decE ⟨some dn, some de⟩ = .ok g2' := by simp only [fromDict, n2, e2, g1]
  rw [k2] at hg
  cases hg
  exact ⟨h, g4, by simp only [view, g2, g3, n4, e4]⟩

omit [DecidableEq ι] in
theorem acyclic_strip (f : ε → ε) (es : List (Item ι Unit (EdgeData ι ε))) : Acyclic (es.map (strip f)) ↔ Acyclic es := by
  constructor
  · intro h n p hp
    simpa using h n _ (walk_strip f hp)
  · intro h n p hp
    obtain ⟨q, hq, hl⟩ := walk_unstrip f hp
    rw [h n q hq] at hl
    exact List.length_eq_zero_iff.1 hl.symm

section restored
variable {D : Type} (clsN clsE : Unit → String) (load : String → Option Unit) (lionClass : D → Option String)
  (encN : Item ι Unit ν → D) (decN : D → Except Exc (Item ι Unit ν))
  (encE : Item ι Unit (EdgeData ι ε) → D) (decE : D → Except Exc (Item ι Unit (EdgeData ι ε))) (f : ε → ε)

/-- **C282**: a graph that was written and read back is acyclic exactly if the original is, and has a topological order exactly if the
original has one (both within the recursion limit). -/
theorem C282_structure
    (hN : ∀ c, load (clsN c) = some c) (hE : ∀ c, load (clsE c) = some c)
    (hdN : ∀ x, decN (encN x) = .ok x) (hdE : ∀ e, decE (encE e) = .ok (strip f e))
    (ops : List (Op ι ν ε)) (s : SG ι ν ε) (hs : Shows (run {} ops) s) (d : GraphDict D) (g' : Graph ι ν ε)
    (hd : toDict clsN clsE encN encE (run {} ops) = .ok d) (hg : fromDict load lionClass decN decE d = .ok g')
    (o o' : SetOrder ι) (limit fuel : Nat) (hl : s.nodes.length ≤ limit) (hf : s.nodes.length ≤ fuel) :
    isAcyclic o' g' limit = isAcyclic o (run {} ops) limit ∧
    ((∃ r, topologicalSort o' g' limit fuel = some (.ok r)) ↔ ∃ r, topologicalSort o (run {} ops) limit fuel = some (.ok r)) := by
  obtain ⟨h, h', hv⟩ := restored_ginv clsN clsE load lionClass encN decN encE decE f hN hE hdN hdE ops d g' hd hg
  rw [shows_iff h] at hs
  subst hs
  have hlen : ∀ {g : Graph ι ν ε}, GInv g → (view g).nodes.length = g.nodes.order.length := by
    intro g k; rw [← Pile.abs_ids k.nodes]; simp [view]
  have hn' : (view g').nodes.length = (view (run ({} : Graph ι ν ε) ops)).nodes.length := by rw [hv]
  have hac : Acyclic (view g').edges ↔ Acyclic (view (run ({} : Graph ι ν ε) ops)).edges := by rw [hv]; exact acyclic_strip f _
  have key : ∀ {g : Graph ι ν ε} (o : SetOrder ι), GInv g → (view g).nodes.length ≤ limit → (view g).nodes.length ≤ fuel →
      (isAcyclic o g limit = .ok true ∧ Acyclic (view g).edges ∧ ∃ r, topologicalSort o g limit fuel = some (.ok r)) ∨
      (isAcyclic o g limit = .ok false ∧ ¬ Acyclic (view g).edges ∧ topologicalSort o g limit fuel = some (.error .valueError)) := by
    intro g o k kl kf
    have hsp := isAcyclic_spec k o limit
    cases hr : isAcyclic o g limit with
    | error e => 
      have := (hsp.2 e hr).2
      have := hlen k
      omega
    | ok b =>
      have hb := hsp.1 b hr
      cases b with
      | false => exact Or.inr ⟨rfl, fun hh => absurd (hb.2 hh) (by simp), by simp only [topologicalSort, hr]⟩
      | true =>
        obtain ⟨r, h1, _⟩ := topologicalSort_ok k o limit fuel hr (by rw [← hlen k]; exact kf)
        exact Or.inl ⟨rfl, hb.1 rfl, r, h1⟩
  rcases key o h hl hf with ⟨a1, a2, a3⟩ | ⟨a1, a2, a3⟩ <;>
    rcases key o' h' (by omega) (by omega) with ⟨b1, b2, b3⟩ | ⟨b1, b2, b3⟩
  · exact ⟨by rw [a1, b1], fun _ => a3, fun _ => b3⟩
  · exact absurd (hac.2 a2) b2
  · exact absurd (hac.1 b2) a2
  · exact ⟨by rw [a1, b1], by rw [a3, b3]⟩

/-- **C282**: conditions are not written, so `find_path` on the graph read back answers, with or without `check_conditions`, what it
answers on the original without; in particular the answers without `check_conditions` survive. -/
theorem C282_unchecked
    (hN : ∀ c, load (clsN c) = some c) (hE : ∀ c, load (clsE c) = some c)
    (hdN : ∀ x, decN (encN x) = .ok x) (hdE : ∀ e, decE (encE e) = .ok (strip f e))
    (ops : List (Op ι ν ε)) (s : SG ι ν ε) (hs : Shows (run {} ops) s) (d : GraphDict D) (g' : Graph ι ν ε)
    (hd : toDict clsN clsE encN encE (run {} ops) = .ok d) (hg : fromDict load lionClass decN decE d = .ok g')
    (c : ε → Option Bool) (hf : ∀ x, c (f x) = none) (o o' : SetOrder ι) (check : Bool) (a b : ι) (ha : s.IsNode a) (hb : s.IsNode b)
    (fuel : Nat) (hfuel : 2 * s.nodes.length ≤ fuel) :
    SameAnswer (findPathCond o' g' check c (some a) (some b) fuel) (findPathCond o (run {} ops) false c (some a) (some b) fuel) := by
  obtain ⟨h, h', hv⟩ := restored_ginv clsN clsE load lionClass encN decN encE decE f hN hE hdN hdE ops d g' hd hg
  rw [shows_iff h] at hs
  subst hs
  rw [sameAnswer_iff h' h o' o check false c (by rw [hv]; exact ha) (by rw [hv]; exact hb) ha hb (by rw [hv]; exact hfuel) hfuel,
    hv, allowed_strip check c f hf, allowed_all]
  constructor
  · intro p hp
    obtain ⟨q, hq, hl⟩ := walk_unstrip f hp
    exact ⟨q, hq, by omega⟩
  · intro p hp
    exact ⟨_, walk_strip f hp, by simp⟩

/-- **C282** (partial, exact).  With `check_conditions`, all answers (path lengths included) survive writing and reading exactly if beside
every edge between two different nodes whose condition says no there is a parallel edge that may be used; the answers to "is there a
path" survive exactly if every edge whose condition says no is bypassed by a walk of edges that may be used. -/
theorem C282_exact_partial
    (hN : ∀ c, load (clsN c) = some c) (hE : ∀ c, load (clsE c) = some c)
    (hdN : ∀ x, decN (encN x) = .ok x) (hdE : ∀ e, decE (encE e) = .ok (strip f e))
    (ops : List (Op ι ν ε)) (s : SG ι ν ε) (hs : Shows (run {} ops) s) (d : GraphDict D) (g' : Graph ι ν ε)
    (hd : toDict clsN clsE encN encE (run {} ops) = .ok d) (hg : fromDict load lionClass decN decE d = .ok g')
    (c : ε → Option Bool) (hf : ∀ x, c (f x) = none) (o o' : SetOrder ι)
    (fuel : Nat) (hfuel : 2 * s.nodes.length ≤ fuel) :
    ((∀ a b, s.IsNode a → s.IsNode b →
        SameAnswer (findPathCond o' g' true c (some a) (some b) fuel) (findPathCond o (run {} ops) true c (some a) (some b) fuel)) ↔
      ∀ e ∈ s.edges, c e.data.info = some false → e.data.head ≠ e.data.tail →
        ∃ y ∈ s.edges, c y.data.info ≠ some false ∧ y.data.head = e.data.head ∧ y.data.tail = e.data.tail) ∧
    ((∀ a b, s.IsNode a → s.IsNode b →
        SameReach (findPathCond o' g' true c (some a) (some b) fuel) (findPathCond o (run {} ops) true c (some a) (some b) fuel)) ↔
      ∀ e ∈ s.edges, c e.data.info = some false → ∃ p, Walk (allowed true c s.edges) e.data.head p e.data.tail) := by
  have hends := C15_endpoints ops s hs
  obtain ⟨h, h', hv⟩ := restored_ginv clsN clsE load lionClass encN decN encE decE f hN hE hdN hdE ops d g' hd hg
  rw [shows_iff h] at hs
  subst hs
  have hmem : ∀ e, e ∈ allowed true c (view (run ({} : Graph ι ν ε) ops)).edges ↔
      e ∈ (view (run ({} : Graph ι ν ε) ops)).edges ∧ c e.data.info ≠ some false := by
    intro e; simp [allowed]
  constructor
  · constructor
    · intro hall e he hc hne
      have hh := hall _ _ (hends e he).1 (hends e he).2
      rw [sameAnswer_iff h' h o' o true true c (by rw [hv]; exact (hends e he).1) (by rw [hv]; exact (hends e he).2) (hends e he).1 (hends e he).2
        (by rw [hv]; exact hfuel) hfuel, hv, allowed_strip true c f hf] at hh
      obtain ⟨q, hq, hl⟩ := hh.1 [strip f e] ⟨List.mem_map.2 ⟨e, he, rfl⟩, rfl, rfl⟩
      cases q with
      | nil => exact absurd hq hne
      | cons y q =>
        have : q = [] := by simpa using hl
        subst this
        obtain ⟨h1, h2, h3⟩ := hq
        exact ⟨y, ((hmem y).1 h1).1, ((hmem y).1 h1).2, h2, h3⟩
    · intro hall a b ha hb
      rw [sameAnswer_iff h' h o' o true true c (by rw [hv]; exact ha) (by rw [hv]; exact hb) ha hb (by rw [hv]; exact hfuel) hfuel,
        hv, allowed_strip true c f hf]
      constructor
      · intro p hp
        obtain ⟨q, hq, hl⟩ := walk_unstrip f hp
        have key : ∀ (q : List (Item ι Unit (EdgeData ι ε))) (a : ι), Walk (view (run ({} : Graph ι ν ε) ops)).edges a q b →
            ∃ r, Walk (allowed true c (view (run ({} : Graph ι ν ε) ops)).edges) a r b ∧ r.length ≤ q.length := by
          intro q
          induction q with
          | nil => intro a hq; exact ⟨[], hq, by simp⟩
          | cons e q ih =>
            intro a ⟨h1, h2, h3⟩
            obtain ⟨r, hr, hrl⟩ := ih _ h3
            by_cases hc : c e.data.info = some false
            · by_cases hne : e.data.head = e.data.tail
              · rw [← h2, hne]
                exact ⟨r, hr, by simp; omega⟩
              · obtain ⟨y, y1, y2, y3, y4⟩ := hall e h1 hc hne
                exact ⟨y :: r, ⟨(hmem y).2 ⟨y1, y2⟩, by rw [y3, h2], by rw [y4]; exact hr⟩, by simp [hrl]⟩
            · exact ⟨e :: r, ⟨(hmem e).2 ⟨h1, hc⟩, h2, hr⟩, by simp [hrl]⟩
        obtain ⟨r, hr, hrl⟩ := key q a hq
        exact ⟨r, hr, by omega⟩
      · intro p hp
        exact ⟨_, walk_strip f (walk_mono (fun e he => ((hmem e).1 he).1) hp), by simp⟩
  · constructor
    · intro hall e he hc
      have hh := hall _ _ (hends e he).1 (hends e he).2
      rw [sameReach_iff h' h o' o true true c (by rw [hv]; exact (hends e he).1) (by rw [hv]; exact (hends e he).2) (hends e he).1 (hends e he).2
        (by rw [hv]; exact hfuel) hfuel, hv, allowed_strip true c f hf] at hh
      exact hh.1 ⟨[strip f e], List.mem_map.2 ⟨e, he, rfl⟩, rfl, rfl⟩
    · intro hall a b ha hb
      rw [sameReach_iff h' h o' o true true c (by rw [hv]; exact ha) (by rw [hv]; exact hb) ha hb (by rw [hv]; exact hfuel) hfuel,
        hv, allowed_strip true c f hf]
      constructor
      · intro ⟨p, hp⟩
        obtain ⟨q, hq, hl⟩ := walk_unstrip f hp
        have key : ∀ (q : List (Item ι Unit (EdgeData ι ε))) (a : ι), Walk (view (run ({} : Graph ι ν ε) ops)).edges a q b →
            ∃ r, Walk (allowed true c (view (run ({} : Graph ι ν ε) ops)).edges) a r b := by
          intro q
          induction q with
          | nil => intro a hq; exact ⟨[], hq⟩
          | cons e q ih =>
            intro a ⟨h1, h2, h3⟩
            obtain ⟨r, hr⟩ := ih _ h3
            by_cases hc : c e.data.info = some false
            · obtain ⟨p, hp⟩ := hall e h1 hc
              rw [h2] at hp
              exact ⟨p ++ r, walk_append hp hr⟩
            · exact ⟨e :: r, (hmem e).2 ⟨h1, hc⟩, h2, hr⟩
        exact key q a hq
      · intro ⟨p, hp⟩
        exact ⟨_, walk_strip f (walk_mono (fun e he => ((hmem e).1 he).1) hp)⟩

end restored

/-- An edge whose condition says no: before, `find_path(1, 2, check_conditions=True)` is `None`; after writing and reading it is the edge. -/
def guarded : List (Op Nat Unit (Option Bool)) :=
  [.addNode (some ⟨1, (), ()⟩), .addNode (some ⟨2, (), ()⟩), .addEdge (some ⟨10, (), ⟨1, 2, some false⟩⟩)]

/-- What is written for a node or an edge; the condition is left out. -/
def writeNode (x : Item Nat Unit Unit) : Item Nat Unit Unit ⊕ Item Nat Unit (EdgeData Nat (Option Bool)) := .inl x
/-- Likewise for an edge. -/
def writeEdge (x : Item Nat Unit (EdgeData Nat (Option Bool))) : Item Nat Unit Unit ⊕ Item Nat Unit (EdgeData Nat (Option Bool)) :=
  .inr (strip (fun _ => none) x)
/-- Reading a node. -/
def readNode : Item Nat Unit Unit ⊕ Item Nat Unit (EdgeData Nat (Option Bool)) → Except Exc (Item Nat Unit Unit)
  | .inl x => .ok x
  | .inr _ => .error .typeError
/-- Reading an edge. -/
def readEdge : Item Nat Unit Unit ⊕ Item Nat Unit (EdgeData Nat (Option Bool)) → Except Exc (Item Nat Unit (EdgeData Nat (Option Bool)))
  | .inr x => .ok x
  | .inl _ => .error .typeError

/-- **C282** (violation): an edge that was closed is open after writing and reading. -/
theorem C282_reopened_violation : ∃ d g', toDict (fun _ => "Node") (fun _ => "Edge") writeNode writeEdge (run {} guarded) = .ok d ∧
    fromDict (fun _ => some ()) (fun _ => none) readNode readEdge d = .ok g' ∧
    findPathCond .id (run {} guarded) true id (some 1) (some 2) 4 = some (.ok none) ∧
    findPathCond .id g' true id (some 1) (some 2) 4 = some (.ok (some [⟨10, (), ⟨1, 2, none⟩⟩])) := by
  refine ⟨_, _, rfl, rfl, by rfl, by rfl⟩

/-- Non-vacuity of C282: the same with a second, open edge beside the first; writing and reading meet the hypotheses. -/
example : ∃ d g', toDict (fun _ => "Node") (fun _ => "Edge") writeNode writeEdge
      (run {} (guarded ++ [.addEdge (some ⟨11, (), ⟨1, 2, some true⟩⟩)])) = .ok d ∧
    fromDict (fun _ => some ()) (fun _ => none) readNode readEdge d = .ok g' ∧
    findPathCond .id (run {} (guarded ++ [.addEdge (some ⟨11, (), ⟨1, 2, some true⟩⟩)])) true id (some 1) (some 2) 4 =
      some (.ok (some [⟨11, (), ⟨1, 2, some true⟩⟩])) ∧
    (∀ x, readNode (writeNode x) = .ok x) ∧ (∀ e, readEdge (writeEdge e) = .ok (strip (fun _ => none) e)) := by
  refine ⟨_, _, rfl, rfl, by rfl, fun _ => rfl, fun _ => rfl⟩

end Verif.Graph
