import Verif.Lemmas.SyncRG

/-! # Graphs and flows while nothing is removed -/

set_option linter.unusedSectionVars false
set_option linter.unusedVariables false
set_option linter.unusedSimpArgs false

namespace Verif.Sync

variable {σ α β P : Type}

/-- The assertion after a step that may raise certain exceptions: `Qm` after a value, `E e` after the exception `e`. -/
def postE (Qm : β → σ → Prop) (E : Exc → Prop) : Except Exc β → σ → Prop
  | .ok b, s => Qm b s
  | .error e, _ => E e

theorem postE_stable {I : σ → Prop} {R : σ → σ → Prop} {Qm : β → σ → Prop} {E : Exc → Prop} (h : ∀ b, Stable I R (Qm b)) :
    ∀ r, Stable I R (postE Qm E r) := by
  intro r s s' hi ha hr
  cases r with
  | ok b => exact h b s s' hi ha hr
  | error e => exact ha

theorem RG.andThenE {I : σ → Prop} {R : σ → σ → Prop} {Qm : β → σ → Prop} {Q : α → σ → Prop} {E : Exc → Prop} {A : σ → Prop}
    {p : Prog σ (Except Exc β)} {k : β → Prog σ (Except Exc α)} (hs : ∀ b, Stable I R (Qm b))
    (hp : RG I R (postE Qm E) A p) (hk : ∀ b, RG I R (postE Q E) (Qm b) (k b)) : RG I R (postE Q E) A (Sync.andThen p k) := by
  refine RG.bind (postE_stable hs) ?_ p A hp
  intro r
  cases r with
  | ok b => exact hk b
  | error e => exact fun _ _ h => h

theorem RG.mapOkE {I : σ → Prop} {R : σ → σ → Prop} {Qm : β → σ → Prop} {Q : Except Exc α → σ → Prop} {E : Exc → Prop} {A : σ → Prop}
    {p : Prog σ (Except Exc β)} {f : β → α} (hs : ∀ b, Stable I R (Qm b)) (hp : RG I R (postE Qm E) A p)
    (hq : ∀ b s, I s → Qm b s → Q (.ok (f b)) s) (he : ∀ e s, E e → Q (.error e) s) : RG I R Q A (PileSync.mapOk f p) := by
  refine RG.bind (postE_stable hs) ?_ p A hp
  intro r
  cases r with
  | ok b => exact fun s hi h => hq b s hi h
  | error e => exact fun s hi h => he e s h

theorem RG.frameE {I : σ → Prop} {R : σ → σ → Prop} {Q : β → σ → Prop} {E : Exc → Prop} {F A : σ → Prop} (hF : Stable I R F)
    {p : Prog σ (Except Exc β)} (h : RG I R (postE Q E) A p) :
    RG I R (postE (fun b s => F s ∧ Q b s) E) (fun s => F s ∧ A s) p := by
  refine RG.post ?_ p _ (RG.frame hF p A h)
  intro r s _ hr
  cases r with
  | ok b => exact hr
  | error e => exact hr.2

end Verif.Sync

namespace Verif.GraphSync

open Verif.Sync Verif.PileSync

variable {ι ν ε : Type} [DecidableEq ι]

/-- Every recorded edge id has an edge, every edge has its head among the nodes, every node is stored under its id, only nodes have recorded edges. -/
structure Linked (g : Graph ι ν ε) : Prop where
  inn : ∀ n, ∀ e ∈ Graph.adj g.inn n, e ∈ g.edges.items.keys
  head : ∀ e x, g.edges.items.get? e = some x → x.data.head ∈ g.nodes.items.keys
  ids : ∀ u x, g.nodes.items.get? u = some x → x.id = u
  owners : ∀ n, Graph.adj g.inn n ≠ [] → n ∈ g.nodes.items.keys

/-- No node and no edge disappears; no node of `N` gets another edge pointing to it. -/
def Grows (N : ι → Prop) (g g' : Graph ι ν ε) : Prop :=
  (∀ u ∈ g.nodes.items.keys, u ∈ g'.nodes.items.keys) ∧ (∀ u ∈ g.edges.items.keys, u ∈ g'.edges.items.keys) ∧
    ∀ n, N n → Graph.adj g'.inn n = Graph.adj g.inn n

variable {N : ι → Prop}

theorem Grows.refl (g : Graph ι ν ε) : Grows N g g := ⟨fun _ h => h, fun _ h => h, fun _ _ => rfl⟩

theorem stable_node (u : ι) : Stable (σ := Graph ι ν ε) Linked (Grows N) (fun g => u ∈ g.nodes.items.keys) := fun _ _ _ ha hr => hr.1 u ha
theorem stable_edge (u : ι) : Stable (σ := Graph ι ν ε) Linked (Grows N) (fun g => u ∈ g.edges.items.keys) := fun _ _ _ ha hr => hr.2.1 u ha

theorem stable_unlinked (u : ι) : Stable (σ := Graph ι ν ε) Linked (Grows N) (fun g => N u → Graph.adj g.inn u = []) :=
  fun _ _ _ ha hr h => (hr.2.2 u h).trans (ha h)

theorem addNode_rg {A : Graph ι ν ε → Prop} (a : Pile.Arg ι Unit ν) : RG Linked (Grows N) (okPost (fun _ _ => True) True) A (addNode a) := by
  cases a with
  | none => exact fun _ _ _ => trivial
  | some x =>
    have sU : Unit → Stable (σ := Graph ι ν ε) Linked (Grows N) (fun g => N x.id → Graph.adj g.inn x.id = []) := fun _ => stable_unlinked x.id
    have hst := okPost_stable (E := True) sU
    refine RG.andThen sU (RG.withLock hst ?_) (fun _ => RG.andThen sU ?_ (fun _ => ?_))
    · have sC : ∀ y : Item ι Unit ν, Stable (σ := Graph ι ν ε) Linked (Grows N) (fun g => y = x ∧ (N x.id → Graph.adj g.inn x.id = [])) :=
        fun y s s' hi ha hr => ⟨ha.1, stable_unlinked x.id s s' hi ha.2 hr⟩
      refine RG.andThen sC ?_ (fun y => RG.andThen sU ?_ (fun _ => ?_))
      · refine RG.look Grows.refl (okPost_stable sC) (fun g => ?_) (fun g hi _ => ?_)
        · show ({ g with nodes := (addCheck Graph.anySub (some x) g.nodes).1 } : Graph ι ν ε) = g
          rw [addCheck_fst]
        · show okPost _ _ (addCheck Graph.anySub (some x) g.nodes).2 g
          cases hc : (addCheck Graph.anySub (some x) g.nodes).2 with
          | error e => trivial
          | ok y =>
            refine ⟨(Option.some.inj (addCheck_ok hc)).symm, fun _ => Classical.byContradiction fun hne => ?_⟩
            have hk := hi.owners _ hne
            rw [← Dict.has_iff] at hk
            simp only [addCheck, hk, if_true] at hc
            split at hc <;> simp at hc
      · refine RG.act hst (fun g hi ha => ?_)
        obtain ⟨rfl, ha⟩ := ha
        simp only [nodes_lift, putItem, okPost]
        refine ⟨⟨hi.inn, fun e z hz => ?_, fun u z hz => ?_, fun n hn => ?_⟩, ⟨fun u hu => ?_, fun _ h => h, fun _ _ => rfl⟩, ha⟩
        · rw [Dict.mem_keys_set]; exact Or.inr (hi.head e z hz)
        · rw [Dict.get?_set] at hz
          by_cases e : y.id = u
          · rw [if_pos e] at hz; simp only [Option.some.injEq] at hz; rw [← e, hz]
          · rw [if_neg e] at hz; exact hi.ids u z hz
        · rw [Dict.mem_keys_set]; exact Or.inr (hi.owners n hn)
        · rw [Dict.mem_keys_set]; exact Or.inr hu
      · refine RG.act hst (fun g hi ha => ?_)
        simp only [nodes_lift, appendId, okPost]
        exact ⟨⟨hi.inn, hi.head, hi.ids, hi.owners⟩, ⟨fun _ h => h, fun _ h => h, fun _ _ => rfl⟩, ha⟩
    · refine RG.act hst (fun g hi ha => ?_)
      simp only [initOut, okPost]
      exact ⟨⟨hi.inn, hi.head, hi.ids, hi.owners⟩, ⟨fun _ h => h, fun _ h => h, fun _ _ => rfl⟩, ha⟩
    · refine RG.act (okPost_stable (fun _ => stable_true)) (fun g hi ha => ?_)
      simp only [initInn, okPost, and_true]
      refine ⟨⟨fun n e he => ?_, hi.head, hi.ids, fun n hn => ?_⟩, fun _ h => h, fun _ h => h, fun n hN => ?_⟩
      · simp only [Graph.adj, Dict.get?_set] at he
        by_cases en : x.id = n
        · rw [if_pos en] at he; simp at he
        · rw [if_neg en] at he; exact hi.inn n e he
      · simp only [Graph.adj, Dict.get?_set] at hn
        by_cases en : x.id = n
        · rw [if_pos en] at hn; simp at hn
        · rw [if_neg en] at hn; exact hi.owners n hn
      · simp only [Graph.adj, Dict.get?_set]
        by_cases en : x.id = n
        · rw [if_pos en]
          have := ha (en ▸ hN)
          rw [en] at this
          exact this.symm
        · rw [if_neg en]

theorem needNode_rg {A : Graph ι ν ε → Prop} (hA : Stable Linked (Grows N) A) (n : ι) :
    RG Linked (Grows N) (okPost (fun _ g => A g ∧ n ∈ g.nodes.items.keys) True) A (withLock 1 (nodesL.act (PileSync.read (needNode n)))) := by
  have hst : ∀ r, Stable (σ := Graph ι ν ε) Linked (Grows N) (okPost (fun (_ : Unit) g => A g ∧ n ∈ g.nodes.items.keys) True r) :=
    okPost_stable (fun _ s s' hi ha hr => ⟨hA s s' hi ha.1 hr, hr.1 n ha.2⟩)
  refine RG.withLock hst (RG.look Grows.refl hst (fun _ => rfl) (fun g hi ha => ?_))
  show okPost _ _ (needNode n g.nodes) g
  simp only [needNode]
  by_cases h : Pile.contains g.nodes (some n) = false
  · rw [if_pos h]; trivial
  · rw [if_neg h]
    refine ⟨ha, ?_⟩
    rw [← Dict.has_iff]
    simpa [Pile.contains] using h

theorem addEdge_rg (a : Pile.Arg ι Unit (EdgeData ι ε)) (hN : ∀ x, a = some x → ¬ N x.data.tail) :
    RG Linked (Grows N) (okPost (fun _ _ => True) True) (fun _ : Graph ι ν ε => True) (addEdge a) := by
  cases a with
  | none => exact fun _ _ _ => trivial
  | some x =>
    have sH := stable_node (N := N) (ν := ν) (ε := ε) x.data.head
    have sE : Unit → Stable (σ := Graph ι ν ε) Linked (Grows N) (fun g => x.data.tail ∈ g.nodes.items.keys ∧ x.id ∈ g.edges.items.keys) :=
      fun _ s s' hi ha hr => ⟨stable_node _ s s' hi ha.1 hr, stable_edge _ s s' hi ha.2 hr⟩
    have hst : ∀ (r : Except Exc Unit), Stable (σ := Graph ι ν ε) Linked (Grows N) (okPost (fun _ _ => True) True r) :=
      okPost_stable (fun _ => stable_true)
    refine RG.andThen (Qm := fun _ g => True ∧ x.data.head ∈ g.nodes.items.keys) ?_ (needNode_rg stable_true _) (fun _ => ?_)
    · exact fun _ s s' hi ha hr => ⟨trivial, sH s s' hi ha.2 hr⟩
    have sT : Stable (σ := Graph ι ν ε) Linked (Grows N) (fun g => (True ∧ x.data.head ∈ g.nodes.items.keys) ∧ x.data.tail ∈ g.nodes.items.keys) :=
      fun s s' hi ha hr => ⟨⟨trivial, sH s s' hi ha.1.2 hr⟩, stable_node _ s s' hi ha.2 hr⟩
    refine RG.andThen (Qm := fun _ g => (True ∧ x.data.head ∈ g.nodes.items.keys) ∧ x.data.tail ∈ g.nodes.items.keys) (fun _ => sT)
      (needNode_rg (fun s s' hi ha hr => ⟨trivial, sH s s' hi ha.2 hr⟩) _) (fun _ => ?_)
    refine RG.andThen sE (RG.withLock (okPost_stable sE) ?_) (fun _ => ?_)
    · have sC : ∀ y : Item ι Unit (EdgeData ι ε), Stable (σ := Graph ι ν ε) Linked (Grows N)
          (fun g => y = x ∧ (True ∧ x.data.head ∈ g.nodes.items.keys) ∧ x.data.tail ∈ g.nodes.items.keys) :=
        fun y s s' hi ha hr => ⟨ha.1, sT s s' hi ha.2 hr⟩
      refine RG.andThen sC ?_ (fun y => ?_)
      · refine RG.look Grows.refl (okPost_stable sC) (fun g => ?_) (fun g hi ha => ?_)
        · show ({ g with edges := (addCheck Graph.anySub (some x) g.edges).1 } : Graph ι ν ε) = g
          rw [addCheck_fst]
        · show okPost _ _ (addCheck Graph.anySub (some x) g.edges).2 g
          cases hc : (addCheck Graph.anySub (some x) g.edges).2 with
          | error e => trivial
          | ok y => exact ⟨(Option.some.inj (addCheck_ok hc)).symm, ha⟩
      · refine RG.andThen sE ?_ (fun _ => ?_)
        · refine RG.act (okPost_stable sE) (fun g hi ha => ?_)
          obtain ⟨rfl, ha⟩ := ha
          simp only [edges_lift, putItem, okPost]
          refine ⟨⟨fun n e he => ?_, fun e z hz => ?_, hi.ids, hi.owners⟩, ⟨fun _ h => h, fun u hu => ?_, fun _ _ => rfl⟩, ha.2, ?_⟩
          · rw [Dict.mem_keys_set]; exact Or.inr (hi.inn n e he)
          · rw [Dict.get?_set] at hz
            by_cases e' : y.id = e
            · rw [if_pos e'] at hz; simp only [Option.some.injEq] at hz; rw [← hz]; exact ha.1.2
            · rw [if_neg e'] at hz; exact hi.head e z hz
          · rw [Dict.mem_keys_set]; exact Or.inr hu
          · rw [Dict.mem_keys_set]; exact Or.inl rfl
        · refine RG.act (okPost_stable sE) (fun g hi ha => ?_)
          simp only [edges_lift, appendId, okPost]
          exact ⟨⟨hi.inn, hi.head, hi.ids, hi.owners⟩, ⟨fun _ h => h, fun _ h => h, fun _ _ => rfl⟩, ha⟩
    · refine RG.andThen sE ?_ (fun _ => ?_)
      · refine RG.act (okPost_stable sE) (fun g hi ha => ?_)
        simp only [linkOut]
        cases g.out.get? x.data.head with
        | none => exact ⟨hi, Grows.refl g, trivial⟩
        | some l => exact ⟨⟨hi.inn, hi.head, hi.ids, hi.owners⟩, ⟨fun _ h => h, fun _ h => h, fun _ _ => rfl⟩, ha⟩
      · refine RG.act hst (fun g hi ha => ?_)
        simp only [linkInn]
        cases hg : g.inn.get? x.data.tail with
        | none => exact ⟨hi, Grows.refl g, trivial⟩
        | some l =>
          refine ⟨⟨fun n e he => ?_, hi.head, hi.ids, fun n hn => ?_⟩, ⟨fun _ h => h, fun _ h => h, fun n hn => ?_⟩, trivial⟩
          · simp only [Graph.adj, Dict.get?_set] at he
            by_cases en : x.data.tail = n
            · rw [if_pos en] at he
              simp only [Option.getD_some, Graph.setAdd] at he
              have hl : ∀ e ∈ l, e ∈ g.edges.items.keys := fun e h => hi.inn x.data.tail e (by simp [Graph.adj, hg, h])
              split at he
              · exact hl e he
              · rcases List.mem_append.1 he with h | h
                · exact hl e h
                · simp only [List.mem_singleton] at h; rw [h]; exact ha.2
            · rw [if_neg en] at he; exact hi.inn n e he
          · simp only [Graph.adj, Dict.get?_set] at hn
            by_cases en : x.data.tail = n
            · rw [← en]; exact ha.1
            · rw [if_neg en] at hn; exact hi.owners n hn
          · simp only [Graph.adj, Dict.get?_set]
            by_cases en : x.data.tail = n
            · exact absurd (en ▸ hn) (hN x rfl)
            · rw [if_neg en]

/-- All listed nodes are in the graph. -/
def InGraph (l : List (Item ι Unit ν)) (g : Graph ι ν ε) : Prop := ∀ x ∈ l, x.id ∈ g.nodes.items.keys

theorem stable_inGraph (l : List (Item ι Unit ν)) : Stable (σ := Graph ι ν ε) Linked (Grows N) (InGraph l) :=
  fun _ _ _ ha hr x hx => hr.1 _ (ha x hx)

/-- While the loop over the edges into `n` runs: the set has its size if `n` is in `N`, and the edges that remain exist. -/
def Walking (N : ι → Prop) (n : ι) (size : Nat) (es : List ι) (g : Graph ι ν ε) : Prop :=
  (N n → (Graph.adj g.inn n).length = size) ∧ ∀ e ∈ es, e ∈ g.edges.items.keys

theorem stable_walking (n : ι) (size : Nat) (es : List ι) : Stable (σ := Graph ι ν ε) Linked (Grows N) (Walking N n size es) :=
  fun _ _ _ ha hr => ⟨fun h => by rw [hr.2.2 n h]; exact ha.1 h, fun e he => hr.2.1 _ (ha.2 e he)⟩

theorem nextInn_rg (n : ι) (size : Nat) (es : List ι) :
    RG Linked (Grows N) (postE (fun _ => Walking N n size es) (fun e => e = .runtimeError ∧ ¬ N n)) (Walking (ν := ν) (ε := ε) N n size es)
      (act (nextInn n size)) := by
  refine RG.look Grows.refl (postE_stable (fun _ => stable_walking n size es)) (fun g => ?_) (fun g hi ha => ?_)
  · simp only [nextInn]; split <;> rfl
  · simp only [nextInn]
    by_cases h : (Graph.adj g.inn n).length = size
    · rw [if_pos h]; exact ha
    · rw [if_neg h]; exact ⟨rfl, fun hn => h (ha.1 hn)⟩

theorem headNodes_rg (n : ι) (size : Nat) (es : List ι) :
    RG Linked (Grows N) (postE InGraph (fun e => e = .runtimeError ∧ ¬ N n)) (Walking (ν := ν) (ε := ε) N n size es) (headNodes n size es) := by
  induction es with
  | nil =>
    refine RG.andThenE (fun _ => stable_walking n size []) (nextInn_rg n size []) (fun _ => ?_)
    exact fun _ _ _ x hx => absurd hx (by simp)
  | cons e es ih =>
    have s1 : ∀ ed : Item ι Unit (EdgeData ι ε), Stable (σ := Graph ι ν ε) Linked (Grows N)
        (fun g => ed.data.head ∈ g.nodes.items.keys ∧ Walking N n size es g) :=
      fun ed s s' hi ha hr => ⟨hr.1 _ ha.1, stable_walking n size es s s' hi ha.2 hr⟩
    have s2 : ∀ x : Item ι Unit ν, Stable (σ := Graph ι ν ε) Linked (Grows N)
        (fun g => x.id ∈ g.nodes.items.keys ∧ Walking N n size es g) :=
      fun ed s s' hi ha hr => ⟨hr.1 _ ha.1, stable_walking n size es s s' hi ha.2 hr⟩
    refine RG.andThenE (fun _ => stable_walking n size (e :: es)) (nextInn_rg n size (e :: es)) (fun _ => ?_)
    refine RG.andThenE s1 (RG.withLock (postE_stable s1) (RG.look Grows.refl (postE_stable s1) (fun _ => rfl) (fun g hi ha => ?_))) (fun ed => ?_)
    · show postE _ _ (need e g.edges) g
      simp only [need]
      cases hg : g.edges.items.get? e with
      | none => exact absurd (ha.2 e (by simp)) ((Dict.get?_eq_none_iff _ _).1 hg)
      | some x => exact ⟨hi.head e x hg, ha.1, fun e' h => ha.2 e' (by simp [h])⟩
    · refine RG.andThenE s2 (RG.withLock (postE_stable s2) (RG.look Grows.refl (postE_stable s2) (fun _ => rfl) (fun g hi ha => ?_))) (fun x => ?_)
      · show postE _ _ (need ed.data.head g.nodes) g
        simp only [need]
        cases hg : g.nodes.items.get? ed.data.head with
        | none => exact absurd ha.1 ((Dict.get?_eq_none_iff _ _).1 hg)
        | some x => exact ⟨by rw [hi.ids _ _ hg]; exact ha.1, ha.2⟩
      · have s3 : ∀ l : List (Item ι Unit ν), Stable (σ := Graph ι ν ε) Linked (Grows N) (fun g => x.id ∈ g.nodes.items.keys ∧ InGraph l g) :=
          fun l s s' hi ha hr => ⟨hr.1 _ ha.1, stable_inGraph l s s' hi ha.2 hr⟩
        refine RG.andThenE (Qm := fun l g => x.id ∈ g.nodes.items.keys ∧ InGraph l g) s3 ?_ (fun l => ?_)
        · exact RG.frameE (stable_node x.id) ih
        · intro g hi ha y hy
          rcases List.mem_cons.1 hy with h | h
          · rw [h]; exact ha.1
          · exact ha.2 y h

/-- What is known when the loop starts. -/
def Opened (N : ι → Prop) (n : ι) : Option (List ι) → Graph ι ν ε → Prop
  | none, _ => True
  | some es, g => Walking N n es.length es g

theorem stable_opened (n : ι) : ∀ r, Stable (σ := Graph ι ν ε) Linked (Grows N) (Opened N n r)
  | none => stable_true
  | some es => stable_walking n es.length es

theorem getPredecessors_rg {A : Graph ι ν ε → Prop} (o : SetOrder ι) (n : ι) :
    RG Linked (Grows N) (postE InGraph (fun e => e = .runtimeError ∧ ¬ N n)) A (getPredecessors o (some n)) := by
  refine RG.andThenE (stable_opened n) (RG.look Grows.refl (postE_stable (stable_opened n)) (fun g => ?_) (fun g hi _ => ?_)) (fun r => ?_)
  · simp only [openInn]; split <;> rfl
  · simp only [openInn]
    cases hg : g.inn.get? n with
    | none => trivial
    | some l =>
      refine ⟨fun _ => ?_, fun e he => hi.inn n e ?_⟩
      · simp only [Graph.adj, hg, Option.getD_some]
        exact (o.inn_perm n l).length_eq.symm
      · simp only [Graph.adj, hg, Option.getD_some]
        exact (o.inn_perm n l).mem_iff.1 he
  · cases r with
    | none => exact fun _ _ _ x hx => absurd hx (by simp)
    | some es => exact headNodes_rg n es.length es

end Verif.GraphSync

namespace Verif.FlowSync

open Verif.Sync Verif.PileSync

variable {ι γ δ : Type} [DecidableEq ι] [DecidableEq γ]

theorem items_lift {β : Type} (h : Pile ι γ δ → Pile ι γ δ × β) (f : Flow ι γ δ) :
    itemsL.lift h f = ({ f with items := (h f.items).1 }, (h f.items).2) := rfl
theorem progs_lift {β : Type} (h : Pile ι Unit (ProgData ι) → Pile ι Unit (ProgData ι) × β) (f : Flow ι γ δ) :
    progsL.lift h f = ({ f with progs := (h f.progs).1 }, (h f.progs).2) := rfl

/-- Every id of `S` listed by a stored progression is listed by the items, and the listed items of `S` exist. -/
structure Sound (S : ι → Prop) (f : Flow ι γ δ) : Prop where
  keys : ∀ x, S x → x ∈ f.items.order → x ∈ f.items.items.keys
  wfi : f.items.items.WF
  wf : f.progs.items.WF
  refs : ∀ u p, f.progs.items.get? u = some p → ∀ x ∈ p.data.order, S x → x ∈ f.items.order

/-- No item of `S` disappears. -/
def Grows (S : ι → Prop) (f f' : Flow ι γ δ) : Prop :=
  (∀ x, S x → x ∈ f.items.order → x ∈ f'.items.order) ∧ ∀ x, S x → x ∈ f.items.items.keys → x ∈ f'.items.items.keys

variable {S : ι → Prop}

theorem Grows.refl (f : Flow ι γ δ) : Grows S f f := ⟨fun _ _ h => h, fun _ _ h => h⟩

theorem stable_ids (l : List ι) : Stable (σ := Flow ι γ δ) (Sound S) (Grows S) (fun f => ∀ x ∈ l, S x → x ∈ f.items.order) :=
  fun _ _ _ ha hr x hx hS => hr.1 x hS (ha x hx hS)

theorem stable_id (x : ι) : Stable (σ := Flow ι γ δ) (Sound S) (Grows S) (fun f => S x → x ∈ f.items.order) :=
  fun _ _ _ ha hr hS => hr.1 x hS (ha hS)

theorem okTrue {β : Type} : ∀ r : Except Exc β, Stable (σ := Flow ι γ δ) (Sound S) (Grows S) (okPost (fun _ _ => True) True r) :=
  okPost_stable (fun _ => stable_true)

theorem okTrue_any {β : Type} (r : Except Exc β) (f : Flow ι γ δ) : okPost (fun _ _ => True) True r f := by cases r <;> trivial

/-- Only the names change. -/
theorem names_rg {β : Type} {A : Flow ι γ δ → Prop} {h : Flow ι γ δ → Res (Flow ι γ δ) β} (hi : ∀ f, (h f).1.items = f.items)
    (hp : ∀ f, (h f).1.progs = f.progs) : RG (Sound S) (Grows S) (okPost (fun _ _ => True) True) A (act h) := by
  refine RG.act okTrue (fun f hf _ => ⟨⟨?_, ?_, ?_, ?_⟩, ?_, okTrue_any _ _⟩)
  · rw [hi]; exact hf.keys
  · rw [hi]; exact hf.wfi
  · rw [hp]; exact hf.wf
  · rw [hi, hp]; exact hf.refs
  · simp only [Grows, hi]; exact Grows.refl f

theorem nameCheck_fst (p : Flow.Prog ι) (f : Flow ι γ δ) : (nameCheck p f).1 = f := by
  simp only [nameCheck]; split <;> rfl

theorem missing_false {p : Pile ι γ δ} {l : List ι} (h : Flow.missing p l = false) : ∀ x ∈ l, x ∈ p.order := by
  intro x hx
  simp only [Flow.missing, List.any_eq_false] at h
  have h1 := h x hx
  by_cases h2 : x ∈ p.keys
  · exact h2
  · exact absurd (by simp [h2]) h1

theorem addProgression_rg {A : Flow ι γ δ → Prop} (p : Flow.Prog ι) :
    RG (Sound S) (Grows S) (okPost (fun _ _ => True) True) A (addProgression p) := by
  refine RG.andThen (Qm := fun _ _ => True) (fun _ => stable_true) (names_rg (fun f => by rw [nameCheck_fst]) (fun f => by rw [nameCheck_fst])) (fun _ => ?_)
  refine RG.andThen (fun _ => stable_ids p.data.order) ?_ (fun _ => ?_)
  · refine RG.look Grows.refl (okPost_stable (fun _ => stable_ids p.data.order)) (fun f => ?_) (fun f hf _ => ?_)
    · simp only [missingCheck]; split <;> rfl
    · simp only [missingCheck]
      by_cases h : Flow.missing f.items p.data.order = true
      · rw [if_pos h]; trivial
      · rw [if_neg h]; exact fun x hx _ => missing_false (by simpa using h) x hx
  refine RG.andThen (Qm := fun _ _ => True) (fun _ => stable_true) (RG.withLock okTrue ?_) (fun _ => names_rg (fun _ => rfl) (fun _ => rfl))
  have sC : ∀ y : Flow.Prog ι, Stable (σ := Flow ι γ δ) (Sound S) (Grows S) (fun f => y = p ∧ ∀ x ∈ p.data.order, S x → x ∈ f.items.order) :=
    fun y s s' hi ha hr => ⟨ha.1, stable_ids _ s s' hi ha.2 hr⟩
  refine RG.andThen (Qm := fun y f => y = p ∧ ∀ x ∈ p.data.order, S x → x ∈ f.items.order) sC ?_ (fun y => RG.andThen (Qm := fun _ _ => True) (fun _ => stable_true) ?_ (fun _ => ?_))
  · refine RG.look Grows.refl (okPost_stable sC) (fun f => ?_) (fun f hf ha => ?_)
    · show ({ f with progs := (addCheck Flow.anySub (some p) f.progs).1 } : Flow ι γ δ) = f
      rw [addCheck_fst]
    · show okPost _ _ (addCheck Flow.anySub (some p) f.progs).2 f
      cases hc : (addCheck Flow.anySub (some p) f.progs).2 with
      | error e => trivial
      | ok y => exact ⟨(Option.some.inj (addCheck_ok hc)).symm, ha⟩
  · refine RG.act okTrue (fun f hf ha => ?_)
    obtain ⟨rfl, ha⟩ := ha
    simp only [progs_lift, putItem, okPost, and_true]
    refine ⟨⟨hf.keys, hf.wfi, Dict.set_wf hf.wf _ _, fun u q hq => ?_⟩, Grows.refl f⟩
    rw [Dict.get?_set] at hq
    by_cases e : y.id = u
    · rw [if_pos e] at hq; simp only [Option.some.injEq] at hq; rw [← hq]; exact ha
    · rw [if_neg e] at hq; exact hf.refs u q hq
  · refine RG.act okTrue (fun f hf ha => ?_)
    simp only [progs_lift, appendId, okPost, and_true]
    exact ⟨⟨hf.keys, hf.wfi, hf.wf, hf.refs⟩, Grows.refl f⟩

theorem dropProg_rg {A : Flow ι γ δ → Prop} (r : Ref ι) :
    RG (Sound S) (Grows S) (okPost (fun _ _ => True) True) A (withLock 2 (removeBody progsL r)) := by
  refine RG.withLock okTrue (RG.andThen (Qm := fun _ _ => True) (fun _ => stable_true) ?_ (fun u => ?_))
  · refine RG.act okTrue (fun f hf _ => ?_)
    rw [progs_lift]
    refine ⟨⟨hf.keys, hf.wfi, ?_, ?_⟩, Grows.refl f, okTrue_any _ _⟩
    · cases r with
      | none => exact hf.wf
      | some u =>
        simp only [popItem]
        cases f.progs.items.get? u with
        | none => exact hf.wf
        | some x => exact Dict.del_wf hf.wf u
    · cases r with
      | none => exact hf.refs
      | some u =>
        simp only [popItem]
        cases f.progs.items.get? u with
        | none => exact hf.refs
        | some x =>
          intro v q hq
          simp only [Dict.get?_del hf.wf] at hq
          by_cases e : u = v
          · rw [if_pos e] at hq; simp at hq
          · rw [if_neg e] at hq; exact hf.refs v q hq
  · refine RG.act okTrue (fun f hf _ => ?_)
    rw [progs_lift]
    have he : (removeId u f.progs).1.items = f.progs.items := by
      simp only [removeId]
      rcases Progression.remove f.progs.order (some u.1) with ⟨o, e | ⟨⟩⟩ <;> rfl
    refine ⟨⟨hf.keys, hf.wfi, ?_, ?_⟩, Grows.refl f, okTrue_any _ _⟩
    · simp only [he]; exact hf.wf
    · simp only [he]; exact hf.refs

theorem needProg_rg {A : Flow ι γ δ → Prop} (u : ι) :
    RG (Sound S) (Grows S) (okPost (fun _ _ => True) True) A (withLock 2 (progsL.act (PileSync.read (needProg u)))) :=
  RG.withLock okTrue (RG.look Grows.refl okTrue (fun _ => rfl) (fun f _ _ => okTrue_any _ _))

theorem removeById_rg {A : Flow ι γ δ → Prop} (r : Ref ι) : RG (Sound S) (Grows S) (okPost (fun _ _ => True) True) A (removeById r) := by
  cases r with
  | none => exact fun _ _ _ => trivial
  | some u =>
    refine RG.andThen (Qm := fun _ _ => True) (fun _ => stable_true) (needProg_rg u) (fun p => ?_)
    exact RG.andThen (Qm := fun _ _ => True) (fun _ => stable_true) (names_rg (fun _ => rfl) (fun _ => rfl)) (fun _ => dropProg_rg _)

theorem takeName_keeps (n : String) (f : Flow ι γ δ) : (takeName n f).1.items = f.items ∧ (takeName n f).1.progs = f.progs := by
  simp only [takeName]
  cases f.names.get? n <;> exact ⟨rfl, rfl⟩

theorem removeProgression_rg {A : Flow ι γ δ → Prop} (k : Flow.FKey ι) :
    RG (Sound S) (Grows S) (okPost (fun _ _ => True) True) A (removeProgression k) := by
  cases k with
  | ref r => exact removeById_rg r
  | str s =>
    refine RG.bind (Q' := fun _ _ => True) (fun _ => stable_true) ?_ _ _ ?_
    · intro r
      cases r with
      | none => exact removeById_rg _
      | some u => exact RG.andThen (Qm := fun _ _ => True) (fun _ => stable_true) (needProg_rg u) (fun _ => dropProg_rg _)
    · refine RG.act (fun _ => stable_true) (fun f hf _ => ?_)
      obtain ⟨h1, h2⟩ := takeName_keeps s.str f
      refine ⟨⟨?_, ?_, ?_, ?_⟩, ?_, trivial⟩
      · rw [h1]; exact hf.keys
      · rw [h1]; exact hf.wfi
      · rw [h2]; exact hf.wf
      · rw [h1, h2]; exact hf.refs
      · simp only [Grows, h1]; exact Grows.refl f

theorem appendTo_rg (x u : ι) :
    RG (Sound S) (Grows S) (okPost (fun _ f => S x → x ∈ f.items.order) True) (fun f : Flow ι γ δ => S x → x ∈ f.items.order) (act (appendTo x u)) := by
  refine RG.act (okPost_stable (fun _ => stable_id x)) (fun f hf ha => ?_)
  simp only [appendTo]
  refine ⟨⟨hf.keys, hf.wfi, ?_, ?_⟩, Grows.refl f, ha⟩
  · simp only [Flow.modify]
    cases f.progs.items.get? u with
    | none => exact hf.wf
    | some p => exact Dict.set_wf hf.wf _ _
  · simp only [Flow.modify]
    cases hu : f.progs.items.get? u with
    | none => exact hf.refs
    | some p =>
      intro v q hq
      simp only [Dict.get?_set] at hq
      by_cases e : u = v
      · rw [if_pos e] at hq
        simp only [Option.some.injEq] at hq
        rw [← hq]
        intro y hy hS
        rcases List.mem_append.1 hy with h | h
        · exact hf.refs u p hu y h hS
        · simp only [List.mem_singleton] at h; subst h; exact ha hS
      · rw [if_neg e] at hq; exact hf.refs v q hq

theorem appendAll_rg (x : ι) : ∀ ps : List (Flow.ProgArg ι),
    RG (Sound S) (Grows S) (okPost (fun _ _ => True) True) (fun f : Flow ι γ δ => S x → x ∈ f.items.order) (appendAll x ps)
  | [] => fun _ _ _ => trivial
  | .foreign :: as => appendAll_rg x as
  | .member u :: as => RG.andThen (fun _ => stable_id x) (appendTo_rg x u) (fun _ => appendAll_rg x as)
  | .key k :: as => by
    refine RG.andThen (Qm := fun _ f => S x → x ∈ f.items.order) (fun _ => stable_id x) (RG.withLock (okPost_stable (fun _ => stable_id x)) ?_) (fun p => ?_)
    · refine RG.look Grows.refl (okPost_stable (fun _ => stable_id x)) (fun _ => rfl) (fun f hf ha => ?_)
      cases (getProg k f).2 with
      | error e => trivial
      | ok p => exact ha
    · exact RG.andThen (fun _ => stable_id x) (appendTo_rg x p.id) (fun _ => appendAll_rg x as)

theorem addItem_rg {A : Flow ι γ δ → Prop} (sub : γ → γ → Bool) (a : Pile.Arg ι γ δ) (ps : List (Flow.ProgArg ι)) :
    RG (Sound S) (Grows S) (okPost (fun _ _ => True) True) A (addItem sub a ps) := by
  have sC : ∀ y : Item ι γ δ, Stable (σ := Flow ι γ δ) (Sound S) (Grows S) (fun _ => a = some y) := fun _ _ _ _ ha _ => ha
  have sK : ∀ y : Item ι γ δ, Stable (σ := Flow ι γ δ) (Sound S) (Grows S) (fun f => a = some y ∧ (S y.id → y.id ∈ f.items.items.keys)) :=
    fun y s s' hi ha hr => ⟨ha.1, fun hS => hr.2 _ hS (ha.2 hS)⟩
  have sD : Stable (σ := Flow ι γ δ) (Sound S) (Grows S) (fun f => ∀ y, a = some y → S y.id → y.id ∈ f.items.order) :=
    fun s s' hi ha hr y hy hS => hr.1 _ hS (ha y hy hS)
  refine RG.andThen (Qm := fun _ f => ∀ y, a = some y → S y.id → y.id ∈ f.items.order) (fun _ => sD) (RG.withLock (okPost_stable (fun _ => sD)) ?_) (fun _ => ?_)
  · refine RG.andThen (Qm := fun y _ => a = some y) sC ?_ (fun y => RG.andThen (Qm := fun _ f => a = some y ∧ (S y.id → y.id ∈ f.items.items.keys)) (fun _ => sK y) ?_ (fun _ => ?_))
    · refine RG.look Grows.refl (okPost_stable sC) (fun f => ?_) (fun f hf ha => ?_)
      · show ({ f with items := (addCheck sub a f.items).1 } : Flow ι γ δ) = f
        rw [addCheck_fst]
      · show okPost _ _ (addCheck sub a f.items).2 f
        cases hc : (addCheck sub a f.items).2 with
        | error e => trivial
        | ok y => exact addCheck_ok hc
    · refine RG.act (okPost_stable (fun _ => sK y)) (fun f hf ha => ?_)
      simp only [items_lift, putItem, okPost]
      refine ⟨⟨fun u hS hu => ?_, Dict.set_wf hf.wfi _ _, hf.wf, hf.refs⟩, ⟨fun _ _ h => h, fun u _ hu => ?_⟩, ha, fun _ => ?_⟩
      · rw [Dict.mem_keys_set]; exact Or.inr (hf.keys u hS hu)
      · rw [Dict.mem_keys_set]; exact Or.inr hu
      · rw [Dict.mem_keys_set]; exact Or.inl rfl
    · refine RG.act (okPost_stable (fun _ => sD)) (fun f hf ha => ?_)
      simp only [items_lift, appendId, okPost]
      refine ⟨⟨fun u hS hu => ?_, hf.wfi, hf.wf, fun u p hp x hx hS => ?_⟩, ⟨fun _ _ h => List.mem_append_left _ h, fun _ _ h => h⟩, fun z hz _ => ?_⟩
      · rcases List.mem_append.1 hu with h | h
        · exact hf.keys u hS h
        · simp only [List.mem_singleton] at h; subst h; exact ha.2 hS
      · exact List.mem_append_left _ (hf.refs u p hp x hx hS)
      · have : z = y := Option.some.inj (hz.symm.trans ha.1)
        rw [this]; simp
  · cases a with
    | none => exact fun _ _ _ => trivial
    | some y => exact RG.weaken _ _ _ (fun f _ h => h y rfl) (appendAll_rg y.id ps)

theorem removeFrom_rg {A : Flow ι γ δ → Prop} (uid u : ι) : RG (Sound S) (Grows S) (okPost (fun _ _ => True) True) A (act (removeFrom uid u)) := by
  refine RG.act okTrue (fun f hf _ => ?_)
  simp only [removeFrom]
  cases hu : f.progs.items.get? u with
  | none => exact ⟨hf, Grows.refl f, trivial⟩
  | some p =>
    by_cases hm : uid ∈ p.data.order
    · simp only [if_pos hm, Flow.modify, hu]
      refine ⟨⟨hf.keys, hf.wfi, Dict.set_wf hf.wf _ _, ?_⟩, Grows.refl f, trivial⟩
      intro v q hq y hy hS
      simp only [Dict.get?_set] at hq
      by_cases e : u = v
      · rw [if_pos e] at hq
        simp only [Option.some.injEq] at hq
        rw [← hq] at hy
        exact hf.refs u p hu y (List.mem_of_mem_erase hy) hS
      · rw [if_neg e] at hq; exact hf.refs v q hq y hy hS
    · simp only [if_neg hm]
      exact ⟨hf, Grows.refl f, trivial⟩

theorem yieldProg_fst (u : ι) (f : Flow ι γ δ) : (yieldProg u f).1 = f := by
  simp only [yieldProg]; split <;> rfl

theorem listedIn_fst (x u : ι) (f : Flow ι γ δ) : (listedIn x u f).1 = f := by
  simp only [listedIn]; split <;> rfl

theorem dropLoop_rg (uid : ι) : ∀ (fuel k : Nat) {A : Flow ι γ δ → Prop}, RG (Sound S) (Grows S) (okPost (fun _ _ => True) True) A (dropLoop uid fuel k) := by
  intro fuel
  induction fuel with
  | zero => intro k A; exact fun _ _ _ => trivial
  | succ fuel ih =>
    intro k A
    refine RG.bind (Q' := fun _ _ => True) (fun _ => stable_true) ?_ _ _ (RG.look Grows.refl (fun _ => stable_true) (fun _ => rfl) (fun _ _ _ => trivial))
    intro r
    cases r with
    | none => exact fun _ _ _ => trivial
    | some u =>
      refine RG.andThen (Qm := fun _ _ => True) (fun _ => stable_true) (RG.look Grows.refl okTrue (yieldProg_fst u) (fun f _ _ => okTrue_any _ _)) (fun _ => ?_)
      refine RG.andThen (Qm := fun _ _ => True) (fun _ => stable_true) (RG.look Grows.refl okTrue (listedIn_fst uid u) (fun f _ _ => okTrue_any _ _)) (fun b => ?_)
      refine RG.andThen (Qm := fun _ _ => True) (fun _ => stable_true) ?_ (fun _ => ih (k + 1))
      cases b with
      | true => exact removeFrom_rg uid u
      | false => exact fun _ _ _ => trivial

theorem removeItem_rg {A : Flow ι γ δ → Prop} (fuel : Nat) (r : Ref ι) (hr : ∀ u, r = some u → ¬ S u) :
    RG (Sound S) (Grows S) (okPost (fun _ _ => True) True) A (removeItem fuel r) := by
  cases r with
  | none => exact fun _ _ _ => trivial
  | some uid =>
    have hno : ∀ x, S x → uid ≠ x := by intro x hx e; subst e; exact hr _ rfl hx
    refine RG.andThen (Qm := fun _ _ => True) (fun _ => stable_true) (dropLoop_rg uid fuel 0) (fun _ => RG.withLock okTrue ?_)
    refine RG.andThen (Qm := fun (u : ι × Item ι γ δ) _ => u.1 = uid) (fun u => fun _ _ _ ha _ => ha) ?_ (fun u => ?_)
    · refine RG.act (okPost_stable (fun u => fun _ _ _ ha _ => ha)) (fun f hf _ => ?_)
      rw [items_lift]
      simp only [popItem]
      cases hg : f.items.items.get? uid with
      | none => exact ⟨hf, Grows.refl f, trivial⟩
      | some x =>
        have hk : ∀ y, S y → y ∈ f.items.items.keys → y ∈ (f.items.items.del uid).keys := by
          intro y hS hy
          rw [Dict.mem_keys_del hf.wfi]
          exact ⟨fun e => hno y hS e.symm, hy⟩
        exact ⟨⟨fun y hS hy => hk y hS (hf.keys y hS hy), Dict.del_wf hf.wfi _, hf.wf, hf.refs⟩, ⟨fun _ _ h => h, hk⟩, rfl⟩
    · refine RG.act okTrue (fun f hf ha => ?_)
      rw [items_lift]
      simp only [removeId, Progression.remove, ha]
      by_cases hm : uid ∈ f.items.order
      · simp only [if_pos hm]
        have hk : ∀ y, S y → y ∈ f.items.order → y ∈ f.items.order.erase uid := fun y hS hy => (List.mem_erase_of_ne (fun e => hno y hS e.symm)).2 hy
        exact ⟨⟨fun y hS hy => hf.keys y hS (List.mem_of_mem_erase hy), hf.wfi, hf.wf, fun u p hp y hy hS => hk y hS (hf.refs u p hp y hy hS)⟩, ⟨hk, fun _ _ h => h⟩, trivial⟩
      · simp only [if_neg hm]
        exact ⟨hf, Grows.refl f, trivial⟩

end Verif.FlowSync
