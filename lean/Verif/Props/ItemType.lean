import Verif.Model.ItemType
import Verif.Props.Pile

/-!
# C233: the ways to write the allowed types of a pile
-/

set_option linter.unusedSectionVars false
set_option linter.unusedSimpArgs false

namespace Verif.ItemType

open Pile (Arg)

variable {ι γ δ : Type} [DecidableEq ι] [DecidableEq γ]

/-- A type is written in an expression, in an argument. -/
def InExpr (t : γ) (e : Expr γ) : Prop := e = .one t ∨ ∃ ts, e = .union ts ∧ t ∈ ts
def Written (t : γ) (a : TypeArg γ) : Prop :=
  (∃ e, a = .expr e ∧ InExpr t e) ∨ ∃ es, (a = .list es ∨ a = .set es) ∧ ∃ e ∈ es, InExpr t e

theorem mem_addExpr (acc : List γ) (e : Expr γ) (t : γ) : t ∈ addExpr acc e ↔ t ∈ acc ∨ InExpr t e := by
  cases e with
  | one u => simp [addExpr, InExpr, @eq_comm _ u t]
  | union ts => simp [addExpr, InExpr]

theorem mem_foldl (t : γ) : ∀ (es : List (Expr γ)) (acc : List γ), t ∈ es.foldl addExpr acc ↔ t ∈ acc ∨ ∃ e ∈ es, InExpr t e
  | [], acc => by simp
  | e :: es, acc => by
    rw [List.foldl_cons, mem_foldl t es, mem_addExpr]
    simp only [List.mem_cons, exists_eq_or_imp, or_assoc]

/-- C233.  Exactly the types written are extracted. -/
theorem C233_extract (a : TypeArg γ) (t : γ) : t ∈ extractTypes a ↔ Written t a := by
  cases a with
  | expr e =>
    cases e with
    | one u => simp [extractTypes, Written, InExpr, @eq_comm _ u t]
    | union ts => simp [extractTypes, Written, InExpr]
  | list es => simp [extractTypes, mem_foldl, Written]
  | set es => simp [extractTypes, mem_foldl, Written]

/-- What a pile with this argument is to accept. -/
def Allowed (sub : γ → γ → Bool) (strict : Bool) (a : Option (TypeArg γ)) (c : γ) : Prop :=
  a = none ∨ ∃ b, a = some b ∧ ∃ t, Written t b ∧ ((strict = true ∧ c = t) ∨ (strict = false ∧ sub c t = true))

theorem validType_iff (sub : γ → γ → Bool) (strict : Bool) (a : Option (TypeArg γ)) (x : Item ι γ δ) :
    Pile.validType sub (pileType a) strict x = true ↔ Allowed sub strict a x.cls := by
  cases a with
  | none => simp [pileType, Pile.validType, Allowed]
  | some b =>
    simp only [pileType, Option.map_some, Pile.validType, Allowed, reduceCtorEq, false_or, Option.some.injEq, exists_eq_left']
    cases strict with
    | true =>
      simp only [if_true, decide_eq_true_eq, C233_extract, true_and, Bool.true_eq_false, reduceCtorEq, false_and, or_false]
      exact ⟨fun h => ⟨_, h, rfl⟩, fun ⟨t, h, e⟩ => e ▸ h⟩
    | false =>
      simp only [Bool.false_eq_true, if_false, List.any_eq_true, C233_extract, false_and, false_or, true_and]

/-- C233.  Adding an item to an empty pile made with any form of `item_type` succeeds iff its class is one of the types written, or (not strict) a subclass of
one; otherwise it is refused with TypeError. -/
theorem C233_pile (sub : γ → γ → Bool) (strict : Bool) (a : Option (TypeArg γ)) (x : Item ι γ δ) :
    (Allowed sub strict a x.cls → ∃ p, mkPile sub [some x] a strict = .ok p ∧ Pile.iter p = .ok [x]) ∧
    (¬ Allowed sub strict a x.cls → mkPile sub [some x] a strict = .error .typeError) := by
  rw [← validType_iff]
  constructor
  · intro h
    refine ⟨{ itemType := pileType a, strict := strict, items := [(x.id, x)], order := [x.id] }, ?_, ?_⟩
    · simp [mkPile, Pile.mk', Pile.addAll, Pile.add, h, Dict.has, Dict.get?, Dict.set]
    · simp [Pile.iter, Pile.lookupAll, Dict.get?]
  · intro h
    have hf : Pile.validType sub (pileType a) strict x = false := by simpa using h
    simp [mkPile, Pile.mk', Pile.addAll, Pile.add, hf]

theorem addAll_congr (sub : γ → γ → Bool) {a b : TypeArg γ} (h : ∀ t, Written t a ↔ Written t b) : ∀ (xs : List (Arg ι γ δ)) (p q : Pile ι γ δ),
    p.itemType = some (extractTypes a) → q = { p with itemType := some (extractTypes b) } →
    (∀ e, Pile.addAll sub p xs = .error e ↔ Pile.addAll sub q xs = .error e) ∧
    (∀ r, Pile.addAll sub p xs = .ok r → Pile.addAll sub q xs = .ok { r with itemType := some (extractTypes b) })
  | [], p, q, hp, hq => by
    subst hq
    exact ⟨fun e => by simp [Pile.addAll], fun r hr => by simp only [Pile.addAll] at hr ⊢; cases hr; rfl⟩
  | x :: xs, p, q, hp, hq => by
    have hv : ∀ y : Item ι γ δ, Pile.validType sub q.itemType q.strict y = Pile.validType sub p.itemType p.strict y := by
      intro y
      subst hq
      rw [hp]
      simp only [Pile.validType]
      cases hs : p.strict with
      | true => simp only [if_true]; rw [decide_eq_decide, C233_extract, C233_extract]; exact (h _).symm
      | false =>
        simp only [Bool.false_eq_true, if_false]
        rw [Bool.eq_iff_iff, List.any_eq_true, List.any_eq_true]
        simp only [C233_extract, h]
    cases x with
    | none => subst hq; exact ⟨fun e => by simp [Pile.addAll, Pile.add], fun r hr => by simp [Pile.addAll, Pile.add] at hr⟩
    | some y =>
      simp only [Pile.addAll, Pile.add, hv y]
      by_cases h1 : Pile.validType sub p.itemType p.strict y = false
      · simp [h1]
      · have hi : q.items = p.items := by rw [hq]
        rw [if_neg h1, if_neg h1, hi]
        by_cases h2 : p.items.has y.id = true
        · simp [h2]
        · rw [if_neg h2, if_neg h2]
          refine addAll_congr sub h xs _ _ ?_ ?_
          · exact hp
          · subst hq; rfl

/-- C233.  Two arguments in which the same types are written make the same pile: both calls raise the same exception, or the piles accept and contain the same
items in the same order. -/
theorem C233_same (sub : γ → γ → Bool) (strict : Bool) (xs : List (Arg ι γ δ)) (a b : TypeArg γ) (h : ∀ t, Written t a ↔ Written t b) :
    (∀ e, mkPile sub xs (some a) strict = .error e ↔ mkPile sub xs (some b) strict = .error e) ∧
    (∀ p, mkPile sub xs (some a) strict = .ok p → ∃ q, mkPile sub xs (some b) strict = .ok q ∧ q.items = p.items ∧ q.order = p.order ∧
      ∀ y : Arg ι γ δ, (Pile.add sub q y).2 = (Pile.add sub p y).2) := by
  have hc := addAll_congr (ι := ι) (δ := δ) sub h xs { itemType := some (extractTypes a), strict := strict } { itemType := some (extractTypes b), strict := strict } rfl rfl
  simp only [mkPile, Pile.mk', pileType, Option.map_some]
  cases h1 : Pile.addAll sub { itemType := some (extractTypes a), strict := strict } xs with
  | error e =>
    rw [(hc.1 e).1 h1]
    exact ⟨fun _ => Iff.rfl, fun p hp => by cases hp⟩
  | ok r =>
    have h2 := hc.2 r h1
    rw [h2]
    refine ⟨fun e => ⟨fun x => (by cases x), fun x => (by cases x)⟩, ?_⟩
    intro p hp
    cases hp
    refine ⟨_, rfl, rfl, rfl, ?_⟩
    intro y
    have hr : r.itemType = some (extractTypes a) := by
      clear h2 hc
      revert h1
      generalize hp : ({ itemType := some (extractTypes a), strict := strict } : Pile ι γ δ) = p0
      have hp0 : p0.itemType = some (extractTypes a) := by rw [← hp]
      clear hp
      induction xs generalizing p0 with
      | nil => intro h1; simp only [Pile.addAll] at h1; cases h1; exact hp0
      | cons x xs ih =>
        intro h1
        simp only [Pile.addAll] at h1
        cases x with
        | none => simp [Pile.add] at h1
        | some z =>
          simp only [Pile.add] at h1
          by_cases e1 : Pile.validType sub p0.itemType p0.strict z = false
          · simp [e1] at h1
          · by_cases e2 : p0.items.has z.id = true
            · simp [e1, e2] at h1
            · rw [if_neg e1, if_neg e2] at h1
              exact ih (p0 := { p0 with items := p0.items.set z.id z, order := p0.order ++ [z.id] }) hp0 h1
    have hs := addAll_congr (ι := ι) (δ := δ) sub h [y] r { r with itemType := some (extractTypes b) } hr rfl
    cases hy : Pile.add sub r y with
    | mk r' o =>
      cases o with
      | ok u =>
        have h3 : Pile.addAll sub r [y] = .ok r' := by simp [Pile.addAll, hy]
        have h4 := hs.2 _ h3
        simp only [Pile.addAll] at h4
        cases hz : Pile.add sub { r with itemType := some (extractTypes b) } y with
        | mk z o =>
          rw [hz] at h4
          cases o with
          | ok v => rfl
          | error e => cases h4
      | error e =>
        have h3 : Pile.addAll sub r [y] = .error e := by simp [Pile.addAll, hy]
        have h4 := (hs.1 e).1 h3
        simp only [Pile.addAll] at h4
        cases hz : Pile.add sub { r with itemType := some (extractTypes b) } y with
        | mk z o =>
          rw [hz] at h4
          cases o with
          | ok v => cases h4
          | error e => cases h4; rfl

/-- C233.  `filter_by_type` gives the same result for two arguments in which the same types are written. -/
theorem C233_filter (sub : γ → γ → Bool) (p : Pile ι γ δ) (a b : TypeArg γ) (h : ∀ t, Written t a ↔ Written t b) :
    filterBy sub p a = filterBy sub p b := by
  have hm : ∀ t, t ∈ extractTypes a ↔ t ∈ extractTypes b := fun t => by rw [C233_extract, C233_extract]; exact h t
  have hall : ∀ f : γ → Bool, (extractTypes a).all f = (extractTypes b).all f := by
    intro f
    rw [Bool.eq_iff_iff, List.all_eq_true, List.all_eq_true]
    exact ⟨fun x t ht => x t ((hm t).2 ht), fun x t ht => x t ((hm t).1 ht)⟩
  have hany : ∀ f : γ → Bool, (extractTypes a).any f = (extractTypes b).any f := by
    intro f
    rw [Bool.eq_iff_iff, List.any_eq_true, List.any_eq_true]
    simp only [hm]
  have ht : Pile.typesAllowed sub p (extractTypes a) = Pile.typesAllowed sub p (extractTypes b) := by
    unfold Pile.typesAllowed
    split
    · rfl
    · rw [hall, hall]
  unfold filterBy Pile.filterByType
  rw [ht]
  simp only [hany]

/-- C233.  A flow restricts its items as a pile does, for every argument that names a type. -/
theorem C233_flow (a : TypeArg γ) (h : ∃ t, Written t a) : flowType (some a) = pileType (some a) := by
  have : truthy a = true := by
    rcases h with ⟨t, ⟨e, rfl, _⟩ | ⟨es, hes, e, he, _⟩⟩
    · rfl
    · have hne : es ≠ [] := List.ne_nil_of_mem he
      rcases hes with rfl | rfl <;> cases es <;> simp_all [truthy]
  simp [flowType, pileType, this]

/-- With an empty list or set a pile accepts nothing, a flow everything. -/
theorem C233_empty_limit (sub : γ → γ → Bool) (x : Item ι γ δ) :
    mkPile sub [some x] (some (.list [])) false = .error .typeError ∧ flowType (γ := γ) (some (.list [])) = none ∧
    mkPile sub [some x] (some (.set [])) false = .error .typeError ∧ flowType (γ := γ) (some (.set [])) = none := by
  simp [mkPile, pileType, extractTypes, Pile.mk', Pile.addAll, Pile.add, Pile.validType, flowType, truthy]

/-- Non-vacuity: a list with a union and a nested-free set of the same three types. -/
example : (∀ t : Nat, Written t (.list [.one 1, .union [2, 3]]) ↔ Written t (.set [.one 3, .one 1, .one 2])) ∧
    Allowed (fun a b : Nat => a == b) false (some (.list [.one 1, .union [2, 3]])) 3 ∧ ¬ Allowed (fun a b : Nat => a == b) false (some (.list [.one 1, .union [2, 3]])) 4 := by
  have h : ∀ t : Nat, Written t (.list [.one 1, .union [2, 3]]) ↔ t = 1 ∨ t = 2 ∨ t = 3 := by
    intro t; rw [← C233_extract]; simp [extractTypes, addExpr]
  have h' : ∀ t : Nat, Written t (.set [.one 3, .one 1, .one 2]) ↔ t = 3 ∨ t = 1 ∨ t = 2 := by
    intro t; rw [← C233_extract]; simp [extractTypes, addExpr]
  refine ⟨fun t => by rw [h, h']; omega, .inr ⟨_, rfl, 3, (h 3).2 (by simp), .inr ⟨rfl, by simp⟩⟩, ?_⟩
  rintro (h0 | ⟨b, hb, t, ht, h1 | h1⟩)
  · cases h0
  · cases h1.1
  · cases hb
    have := (h t).1 ht
    simp at h1
    omega

end Verif.ItemType
