import Verif.Model.ClassTree

/-!
# C328: every element comes back as an instance of its class
-/

set_option linter.unusedSectionVars false
set_option linter.unusedSimpArgs false
set_option linter.unusedVariables false

namespace Verif.ClassTree

variable {γ : Type} [DecidableEq γ]

/-! ## Specification -/

/-- Class `c` is found from its name by `Element.from_dict` called on `B`: it is `B`, or can be imported under its name, and its name is not also that of `B`. -/
def Found (W : World γ) (B c : γ) : Prop := c = B ∨ (W.name c ≠ W.name B ∧ W.load (W.name c) = some c)

mutual
/-- The class of an item is found from `Element`, and so on inside it. -/
def ItemOk (W : World γ) : Obj γ → Prop
  | .mk c kids => Found W W.element c ∧ (W.kind c = .pile → ItemsOk W kids) ∧ (W.kind c = .graph ∨ W.kind c = .flow → PilesOk W kids)
/-- All items. -/
def ItemsOk (W : World γ) : List (Obj γ) → Prop
  | [] => True
  | o :: os => ItemOk W o ∧ ItemsOk W os
/-- A pile in a graph or flow is an instance of `Pile` itself, and so on inside it. -/
def PileOk (W : World γ) : Obj γ → Prop
  | .mk c kids => c = W.pile ∧ ItemsOk W kids
/-- All piles. -/
def PilesOk (W : World γ) : List (Obj γ) → Prop
  | [] => True
  | o :: os => PileOk W o ∧ PilesOk W os
end

/-- What is inside an element is fine. -/
def InsideOk (W : World γ) : Obj γ → Prop
  | .mk c kids => (W.kind c = .pile → ItemsOk W kids) ∧ (W.kind c = .graph ∨ W.kind c = .flow → PilesOk W kids)

/-- Class `c` is found by `B.from_dict`. -/
def RootFound (W : World γ) (B c : γ) : Prop :=
  c = B ∨ (W.kind B = .node ∧ W.name c ≠ W.name B ∧ W.registered (W.name c) = some c) ∨
    ((W.kind B = .plain ∨ W.kind B = .flow) ∧ W.name c ≠ W.name B ∧ W.load (W.name c) = some c)

mutual
/-- An element as the library builds it: plain elements and nodes have no parts, the parts of graphs and flows are piles. -/
def Built (W : World γ) : Obj γ → Prop
  | .mk c kids => (W.kind c = .plain ∨ W.kind c = .node → kids = []) ∧ (W.kind c = .graph ∨ W.kind c = .flow → ∀ k ∈ kids, W.kind k.cls = .pile) ∧ BuiltAll W kids
/-- All elements in an element. -/
def BuiltAll (W : World γ) : List (Obj γ) → Prop
  | [] => True
  | o :: os => Built W o ∧ BuiltAll W os
end

/-! ## Lemmas -/

theorem target_iff {W : World γ} {B c : γ} : target W B (W.name c) = some c ↔ Found W B c := by
  unfold target Found
  by_cases h : W.name c = W.name B
  · rw [if_pos h]
    exact ⟨fun e => .inl (Option.some.inj e).symm, fun e => by
      rcases e with e | e
      · rw [e]
      · exact absurd h e.1⟩
  · rw [if_neg h]
    exact ⟨fun e => .inr ⟨h, e⟩, fun e => by
      rcases e with e | e
      · exact absurd (by rw [e]) h
      · exact e.2⟩

theorem map_mk_iff {x : Except Err (List (Obj γ))} {c d : γ} {kids : List (Obj γ)} : x.map (Obj.mk c) = .ok (.mk d kids) ↔ c = d ∧ x = .ok kids := by
  cases x with
  | error e => exact ⟨fun h => (by cases h), fun h => (by cases h.2)⟩
  | ok l =>
    constructor
    · intro h
      injection h with h
      injection h with h1 h2
      exact ⟨h1, by rw [h2]⟩
    · rintro ⟨h1, h2⟩
      injection h2 with h2
      rw [h1, h2]; rfl

theorem cons_iff {x : Except Err (Obj γ)} {y : Except Err (List (Obj γ))} {o : Obj γ} {os : List (Obj γ)} :
    (x.bind fun a => y.bind fun b => .ok (a :: b)) = .ok (o :: os) ↔ x = .ok o ∧ y = .ok os := by
  cases x with
  | error e => exact ⟨fun h => (by cases h), fun h => (by cases h.1)⟩
  | ok a =>
    cases y with
    | error e => exact ⟨fun h => (by cases h), fun h => (by cases h.2)⟩
    | ok b =>
      constructor
      · intro h
        injection h with h
        injection h with h1 h2
        exact ⟨by rw [h1], by rw [h2]⟩
      · rintro ⟨h1, h2⟩
        injection h1 with h1
        injection h2 with h2
        rw [h1, h2]; rfl

/-- Building gives the element back exactly if the class found is its class and its parts come back. -/
theorem finishAt_iff {W : World γ} {c : γ} {kids : List (Obj γ)} {items piles : Except Err (List (Obj γ))} {t : Option γ} (he : W.kind c = .plain ∨ W.kind c = .node → kids = []) :
    finishAt W (W.kind c) items piles t = .ok (.mk c kids) ↔
      t = some c ∧ (W.kind c = .pile → items = .ok kids) ∧ (W.kind c = .graph ∨ W.kind c = .flow → piles = .ok kids) := by
  have hp : pick (W.kind c) items piles = .ok kids ↔ (W.kind c = .pile → items = .ok kids) ∧ (W.kind c = .graph ∨ W.kind c = .flow → piles = .ok kids) := by
    unfold pick
    cases hk : W.kind c with
    | plain => rw [he (.inl hk)]; simp
    | node => rw [he (.inr hk)]; simp
    | pile => simp
    | graph => simp
    | flow => simp
  cases t with
  | none => exact ⟨fun h => (by cases h), fun h => (by cases h.1)⟩
  | some d =>
    simp only [finishAt, finish]
    by_cases hd : d = c
    · subst hd
      rw [if_pos rfl, map_mk_iff, hp]
      simp
    · constructor
      · intro h
        split at h
        · exact absurd (map_mk_iff.1 h).1 hd
        · cases h
      · rintro ⟨h, _⟩
        exact absurd (Option.some.inj h) hd

mutual
theorem item_iff (W : World γ) (hw : W.kind W.pile = .pile) : ∀ o : Obj γ, Built W o → (itemFrom W (save W o) = .ok o ↔ ItemOk W o)
  | .mk c kids, hb => by
    simp only [Built] at hb
    simp only [save, itemFrom, ItemOk]
    rw [finishAt_iff hb.1, target_iff]
    refine and_congr_right fun _ => and_congr ?_ ?_
    · exact forall_congr' fun _ => items_iff W hw kids hb.2.2
    · exact forall_congr' fun hk => piles_iff W hw kids hb.2.2 (hb.2.1 hk)
theorem items_iff (W : World γ) (hw : W.kind W.pile = .pile) : ∀ os : List (Obj γ), BuiltAll W os → (itemsFrom W (saveAll W os) = .ok os ↔ ItemsOk W os)
  | [], _ => by simp [saveAll, itemsFrom, ItemsOk]
  | o :: os, hb => by
    simp only [BuiltAll] at hb
    simp only [saveAll, itemsFrom, ItemsOk]
    rw [cons_iff, item_iff W hw o hb.1, items_iff W hw os hb.2]
theorem pile_iff (W : World γ) (hw : W.kind W.pile = .pile) : ∀ o : Obj γ, Built W o → W.kind o.cls = .pile → (pileFrom W (save W o) = .ok o ↔ PileOk W o)
  | .mk c kids, hb, hk => by
    simp only [Built] at hb
    simp only [Obj.cls] at hk
    simp only [save, pileFrom, PileOk]
    rw [if_pos hk, map_mk_iff, items_iff W hw kids hb.2.2]
    exact and_congr_left fun _ => eq_comm
theorem piles_iff (W : World γ) (hw : W.kind W.pile = .pile) : ∀ os : List (Obj γ), BuiltAll W os → (∀ k ∈ os, W.kind k.cls = .pile) → (pilesFrom W (saveAll W os) = .ok os ↔ PilesOk W os)
  | [], _, _ => by simp [saveAll, pilesFrom, PilesOk]
  | o :: os, hb, hk => by
    simp only [BuiltAll] at hb
    simp only [saveAll, pilesFrom, PilesOk]
    rw [cons_iff, pile_iff W hw o hb.1 (hk o (by simp)), piles_iff W hw os hb.2 (fun k m => hk k (by simp [m]))]
end

theorem rootTarget_iff {W : World γ} {B c : γ} : rootTarget W B (W.name c) = some c ↔ RootFound W B c := by
  unfold rootTarget RootFound
  cases hk : W.kind B with
  | pile => simp; exact eq_comm
  | graph => simp; exact eq_comm
  | plain => simp; rw [target_iff]; rfl
  | flow => simp; rw [target_iff]; rfl
  | node =>
    simp [nodeTarget]
    by_cases h : W.name c = W.name B
    · rw [if_pos h]; simp [h]; exact eq_comm
    · rw [if_neg h]
      cases hr : W.registered (W.name c) with
      | none => simp; exact eq_comm
      | some d =>
        simp [h]
        intro e
        exact absurd (by rw [e]) h

/-! ## C328 -/

/-- Classes of the examples: 0 `Element`, 1 `Pile`, 2 a subclass of `Pile`, 3 `Graph`, 4 a subclass of `Element` that cannot be imported (it was defined in a function), 5 one that can. -/
def exKind : Nat → Kind
  | 1 => .pile
  | 2 => .pile
  | 3 => .graph
  | _ => .plain

def exName : Nat → String
  | 0 => "Element"
  | 1 => "Pile"
  | 2 => "Sub"
  | 3 => "Graph"
  | 4 => "f.<locals>.A"
  | _ => "B"

def exLoad (s : String) : Option Nat :=
  if s = "Element" then some 0 else if s = "Pile" then some 1 else if s = "Sub" then some 2 else if s = "Graph" then some 3 else if s = "B" then some 5 else none

def exW : World Nat := ⟨exKind, exName, 0, 1, exLoad, fun _ => none⟩

/-- **C328 fails**: `Pile.from_dict` makes a plain pile of the data of a subclass, `Graph.from_dict` and `Element.from_dict` make a plain pile of a subclass in a graph; an item whose class cannot be imported
makes the whole call fail. -/
theorem C328_violation :
    fromDict exW 1 (save exW (.mk 2 [.mk 5 []])) = .ok (.mk 1 [.mk 5 []]) ∧
    fromDict exW 3 (save exW (.mk 3 [.mk 2 [], .mk 1 []])) = .ok (.mk 3 [.mk 1 [], .mk 1 []]) ∧
    fromDict exW 0 (save exW (.mk 3 [.mk 2 [], .mk 1 []])) = .ok (.mk 3 [.mk 1 [], .mk 1 []]) ∧
    fromDict exW 1 (save exW (.mk 1 [.mk 5 [], .mk 4 []])) = .error .value :=
  ⟨rfl, rfl, rfl, rfl⟩

/-- **C328**, exactly: `B.from_dict(x.to_dict())` succeeds with every element at every depth of its own class if and only if the class of `x` is found by `B.from_dict`, the classes of all items of piles, at
every depth, are found from `Element`, and the piles of all graphs and flows are instances of `Pile` itself. -/
theorem C328_exact_partial (W : World γ) (hw : W.kind W.pile = .pile) (B : γ) (o : Obj γ) (hb : Built W o) :
    fromDict W B (save W o) = .ok o ↔ RootFound W B o.cls ∧ InsideOk W o := by
  cases o with
  | mk c kids =>
    simp only [Built] at hb
    simp only [save, fromDict, Obj.cls, InsideOk]
    rw [finishAt_iff hb.1, rootTarget_iff]
    refine and_congr_right fun _ => and_congr ?_ ?_
    · exact forall_congr' fun _ => items_iff W hw kids hb.2.2
    · exact forall_congr' fun hk => piles_iff W hw kids hb.2.2 (hb.2.1 hk)

theorem finishAt_ok {W : World γ} {sh : Kind} {items piles : Except Err (List (Obj γ))} {t : Option γ} {o : Obj γ} (h : finishAt W sh items piles t = .ok o) : t = some o.cls := by
  cases o with
  | mk c kids =>
    cases t with
    | none => cases h
    | some d =>
      simp only [finishAt, finish] at h
      split at h
      · rw [(map_mk_iff.1 h).1]; rfl
      · cases h

/-- **C328**, which class comes out at the top: `from_dict` called on a pile or graph class gives an instance of that very class, whatever the data say; called on another class it gives one of the class
named in the data, if that is found. -/
theorem C328_top_partial (W : World γ) (B : γ) (sh : Kind) (tag : String) (kids : List Data) (o : Obj γ) (h : fromDict W B (.mk sh tag kids) = .ok o) :
    ((W.kind B = .pile ∨ W.kind B = .graph) → o.cls = B) ∧
    ((W.kind B = .plain ∨ W.kind B = .flow) → (tag = W.name B → o.cls = B) ∧ (tag ≠ W.name B → W.load tag = some o.cls)) ∧
    (W.kind B = .node → (tag = W.name B → o.cls = B) ∧ (tag ≠ W.name B → ∀ c, W.registered tag = some c → o.cls = c) ∧ (W.registered tag = none → o.cls = B)) := by
  have ht := finishAt_ok h
  unfold rootTarget at ht
  refine ⟨fun hk => ?_, fun hk => ?_, fun hk => ?_⟩
  · rw [if_pos hk] at ht
    exact (Option.some.inj ht).symm
  · have h1 : ¬ (W.kind B = .pile ∨ W.kind B = .graph) := by rcases hk with hk | hk <;> simp [hk]
    have h2 : ¬ W.kind B = .node := by rcases hk with hk | hk <;> simp [hk]
    rw [if_neg h1, if_neg h2] at ht
    unfold target at ht
    refine ⟨fun e => ?_, fun e => ?_⟩
    · rw [if_pos e] at ht; exact (Option.some.inj ht).symm
    · rw [if_neg e] at ht; exact ht
  · rw [if_neg (by simp [hk]), if_pos hk] at ht
    have ht := Option.some.inj ht
    unfold nodeTarget at ht
    refine ⟨fun e => ?_, fun e c hc => ?_, fun hc => ?_⟩
    · rw [if_pos e] at ht; exact ht.symm
    · rw [if_neg e, hc] at ht; exact ht.symm
    · rw [hc] at ht
      simp only [Option.getD_none, ite_self] at ht
      exact ht.symm

example : Built exW (.mk 3 [.mk 1 [.mk 5 [], .mk 2 [.mk 0 []]], .mk 1 []]) ∧ RootFound exW 0 3 ∧ InsideOk exW (.mk 3 [.mk 1 [.mk 5 [], .mk 2 [.mk 0 []]], .mk 1 []]) := by
  simp [Built, BuiltAll, RootFound, InsideOk, ItemsOk, ItemOk, PilesOk, PileOk, Found, exW, exKind, exName, exLoad, Obj.cls]

end Verif.ClassTree
