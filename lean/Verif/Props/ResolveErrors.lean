import Verif.Props.Resolver

/-!
# Errors of the LNDL resolver: C256
-/

set_option linter.unusedSectionVars false
set_option linter.unusedSimpArgs false
set_option linter.unusedVariables false

namespace Verif.Resolver

open Verif.Parser (Str OutVal)

variable {ν κ μ : Type}

/-! ### Specification: what is wrong with an OUT field -/

/-- What is wrong with a reference `n` in a field of the model class `model`. -/
inductive RefFault (ext : Ext ν κ μ) (lvars : Dict Str LvarMeta) (lacts : Dict Str LactMeta) (model n : Str) : FErr → Prop where
  /-- Nothing of that name is declared. -/
  | undeclared : lacts.get? n = none → lvars.get? n = none → RefFault ext lvars lacts model n .value
  /-- An action without a field to fill. -/
  | noField (m : LactMeta) : lacts.get? n = some m → (m.model = none ∨ m.field = none) → RefFault ext lvars lacts model n .value
  /-- An action for another class. -/
  | actionClass (m : LactMeta) (c f : Str) : lacts.get? n = some m → m.model = some c → m.field = some f → c ≠ model → RefFault ext lvars lacts model n .mismatch
  /-- An action whose call is not a function call. -/
  | call (m : LactMeta) (f : Str) : lacts.get? n = some m → m.model = some model → m.field = some f → ext.parseCall m.call = none → RefFault ext lvars lacts model n .value
  /-- A raw variable. -/
  | raw (l : LvarMeta) : lacts.get? n = none → lvars.get? n = some l → l.ns = none → RefFault ext lvars lacts model n .value
  /-- A variable of another class. -/
  | varClass (l : LvarMeta) (c f : Str) : lacts.get? n = none → lvars.get? n = some l → l.ns = some (c, f) → c ≠ model → RefFault ext lvars lacts model n .mismatch
  /-- A variable whose text cannot be read. -/
  | text (l : LvarMeta) (f : Str) (e : FErr) : lacts.get? n = none → lvars.get? n = some l → l.ns = some (model, f) → ext.parseValue l.value = .error e →
      RefFault ext lvars lacts model n e

/-- What is wrong with an OUT field of specification `s`. -/
inductive Fault (ext : Ext ν κ μ) (lvars : Dict Str LvarMeta) (lacts : Dict Str LactMeta) (s : Spec) : OutVal → FErr → Prop where
  /-- A literal for a field that is not scalar. -/
  | literal (v : OutVal) : (∀ t, s.ty ≠ .scalar t) → (∀ ns, v ≠ .refs ns) → Fault ext lvars lacts s v .value
  /-- References for a field whose type is neither scalar nor a model. -/
  | type_ (ns : List Str) : s.ty = .other → Fault ext lvars lacts s (.refs ns) .typeErr
  /-- No or several references for a scalar. -/
  | many (t : Nat) (ns : List Str) : s.ty = .scalar t → ns.length ≠ 1 → Fault ext lvars lacts s (.refs ns) .value
  /-- A scalar refers to nothing declared. -/
  | undeclared (t : Nat) (n : Str) : s.ty = .scalar t → lacts.get? n = none → lvars.get? n = none → Fault ext lvars lacts s (.refs [n]) .value
  /-- A scalar or model field is an action whose call is not a function call. -/
  | call (n : Str) (m : LactMeta) : ((∃ t, s.ty = .scalar t) ∨ (∃ c, s.ty = .model c) ∧ m.model = none) → lacts.get? n = some m → ext.parseCall m.call = none →
      Fault ext lvars lacts s (.refs [n]) .value
  /-- The text of the literal or variable cannot be read, or the value not converted. -/
  | readLit (t : Nat) (v : OutVal) (e : FErr) : s.ty = .scalar t → (∀ ns, v ≠ .refs ns) → ext.lit v = .error e → Fault ext lvars lacts s v e
  | readVar (t : Nat) (n : Str) (l : LvarMeta) (e : FErr) : s.ty = .scalar t → lacts.get? n = none → lvars.get? n = some l → ext.parseValue l.value = .error e →
      Fault ext lvars lacts s (.refs [n]) e
  | convertLit (t : Nat) (v : OutVal) (u : ν) (e : FErr) : s.ty = .scalar t → (∀ ns, v ≠ .refs ns) → ext.lit v = .ok u → ext.convert t u = .error e → Fault ext lvars lacts s v e
  | convertVar (t : Nat) (n : Str) (l : LvarMeta) (u : ν) (e : FErr) : s.ty = .scalar t → lacts.get? n = none → lvars.get? n = some l → ext.parseValue l.value = .ok u →
      ext.convert t u = .error e → Fault ext lvars lacts s (.refs [n]) e
  /-- The first faulty reference of a model field. -/
  | reference (c : Str) (pre : List Str) (n : Str) (post : List Str) (as : List (Str × Arg ν κ)) (e : FErr) : s.ty = .model c →
      (∀ k m, pre ++ n :: post = [k] → lacts.get? k = some m → m.model ≠ none) → RefsMean ext lvars lacts c pre as → RefFault ext lvars lacts c n e →
      Fault ext lvars lacts s (.refs (pre ++ n :: post)) e
  /-- The class refuses the values (which it is only asked to judge when there is no action among them). -/
  | refused (c : Str) (ns : List Str) (as : List (Str × Arg ν κ)) (kw : Dict Str (Arg ν κ)) (e : FErr) : s.ty = .model c → RefsMean ext lvars lacts c ns as → IsKwargs as kw →
      (∀ f a, kw.get? f ≠ some (.action a)) → ext.construct c kw = .error e → Fault ext lvars lacts s (.refs ns) e
  /-- A validator of the specification refuses the instance. -/
  | invalid (c : Str) (ns : List Str) (as : List (Str × Arg ν κ)) (kw : Dict Str (Arg ν κ)) (i : μ) (e : FErr) : s.ty = .model c → RefsMean ext lvars lacts c ns as → IsKwargs as kw →
      ((∃ f a, kw.get? f = some (.action a)) ∧ i = ext.constructRaw c kw ∨ (∀ f a, kw.get? f ≠ some (.action a)) ∧ ext.construct c kw = .ok i) →
      ext.validators s i = .error e → Fault ext lvars lacts s (.refs ns) e

/-- The report on the fields of the OUT block: one error for each faulty field, in the order of the block, nothing for the others. -/
inductive Report (ext : Ext ν κ μ) (lvars : Dict Str LvarMeta) (lacts : Dict Str LactMeta) (specs : List Spec) : Dict Str OutVal → List FErr → Prop where
  | nil : Report ext lvars lacts specs [] []
  | good (f : Str) (v : OutVal) (s : Spec) (x : FieldVal ν κ μ) (out : Dict Str OutVal) (es : List FErr) : s ∈ specs → s.name = some f → Meaning ext lvars lacts s v x →
      Report ext lvars lacts specs out es → Report ext lvars lacts specs ((f, v) :: out) es
  | bad (f : Str) (v : OutVal) (s : Spec) (e : FErr) (out : Dict Str OutVal) (es : List FErr) : s ∈ specs → s.name = some f → Fault ext lvars lacts s v e →
      Report ext lvars lacts specs out es → Report ext lvars lacts specs ((f, v) :: out) (e :: es)

/-! ### The faults are the errors -/

theorem mkAction_error (ext : Ext ν κ μ) (n : Str) (m : LactMeta) (e : FErr) : mkAction ext n m = .error e ↔ ext.parseCall m.call = none ∧ e = .value := by
  unfold mkAction
  cases ext.parseCall m.call with
  | none => simp [eq_comm]
  | some c => simp

theorem actionField_error (r : Except FErr (Action κ)) (e : FErr) : (actionField r : FRes ν κ μ) = .error e ↔ r = .error e := by
  cases r <;> simp [actionField]

theorem convertTo_error (ext : Ext ν κ μ) (t : Nat) (p : Except FErr ν) (e : FErr) :
    convertTo ext t p = .error e ↔ p = .error e ∨ ∃ u, p = .ok u ∧ ext.convert t u = .error e := by
  cases p with
  | error e' => simp [convertTo]
  | ok u =>
    cases h : ext.convert t u with
    | error e' => simp [convertTo, h]
    | ok w => simp [convertTo, h]

theorem refArg_error (ext : Ext ν κ μ) (lvars : Dict Str LvarMeta) (lacts : Dict Str LactMeta) (model n : Str) (e : FErr) :
    refArg ext lvars lacts model n = .error e ↔ RefFault ext lvars lacts model n e := by
  unfold refArg
  cases ha : lacts.get? n with
  | some m =>
    simp only
    unfold actionArg
    cases hm : m.model with
    | none =>
      simp only
      constructor
      · intro h; cases h; exact .noField m ha (Or.inl hm)
      · intro h
        cases h with
        | undeclared h1 => simp_all
        | noField m' h1 h2 => rfl
        | actionClass m' c f h1 h2 => simp_all
        | call m' f h1 h2 => simp_all
        | raw l h1 => simp_all
        | varClass l c f h1 => simp_all
        | text l f e h1 => simp_all
    | some c =>
      cases hf : m.field with
      | none =>
        simp only
        constructor
        · intro h; cases h; exact .noField m ha (Or.inr hf)
        · intro h
          cases h with
          | undeclared h1 => simp_all
          | noField m' h1 h2 => rfl
          | actionClass m' c f h1 h2 => simp_all
          | call m' f h1 h2 => simp_all
          | raw l h1 => simp_all
          | varClass l c f h1 => simp_all
          | text l f e h1 => simp_all
      | some f =>
        simp only
        by_cases hc : c ≠ model
        · rw [if_pos hc]
          constructor
          · intro h; cases h; exact .actionClass m c f ha hm hf hc
          · intro h
            cases h with
            | undeclared h1 => simp_all
            | noField m' h1 h2 => simp_all
            | actionClass m' c f h1 h2 => rfl
            | call m' f h1 h2 => simp_all
            | raw l h1 => simp_all
            | varClass l c f h1 => rfl
            | text l f e h1 => simp_all
        · rw [if_neg hc]
          have hc' : c = model := Classical.not_not.1 hc
          subst hc'
          cases hp : mkAction ext n m with
          | error e' =>
            obtain ⟨hq, rfl⟩ := (mkAction_error ext n m e').1 hp
            simp only
            constructor
            · intro h; cases h; exact .call m f ha hm hf hq
            · intro h
              cases h with
              | undeclared h1 => rfl
              | noField m' h1 h2 => rfl
              | actionClass m' c f h1 h2 => simp_all
              | call m' f h1 h2 => rfl
              | raw l h1 => rfl
              | varClass l c f h1 => simp_all
              | text l f e h1 => simp_all
          | ok a =>
            simp only
            constructor
            · intro h; cases h
            · intro h
              have hn : ext.parseCall m.call ≠ none := by
                intro hq
                have := (mkAction_error ext n m .value).2 ⟨hq, rfl⟩
                rw [this] at hp; cases hp
              cases h with
              | undeclared h1 => simp_all
              | noField m' h1 h2 => simp_all
              | actionClass m' c f h1 h2 => simp_all
              | call m' f h1 h2 => simp_all
              | raw l h1 => simp_all
              | varClass l c f h1 => simp_all
              | text l f e h1 => simp_all
  | none =>
    simp only
    cases hl : lvars.get? n with
    | none =>
      simp only
      constructor
      · intro h; cases h; exact .undeclared ha hl
      · intro h
        cases h with
        | undeclared h1 => rfl
        | noField m' h1 h2 => rfl
        | actionClass m' c f h1 h2 => simp_all
        | call m' f h1 h2 => rfl
        | raw l h1 => rfl
        | varClass l c f h1 => simp_all
        | text l f e h1 => simp_all
    | some l =>
      simp only
      unfold lvarArg
      cases hns : l.ns with
      | none =>
        simp only
        constructor
        · intro h; cases h; exact .raw l ha hl hns
        · intro h
          cases h with
          | undeclared h1 => rfl
          | noField m' h1 h2 => rfl
          | actionClass m' c f h1 h2 => simp_all
          | call m' f h1 h2 => rfl
          | raw l h1 => rfl
          | varClass l c f h1 => simp_all
          | text l f e h1 => simp_all
      | some cf =>
        obtain ⟨c, f⟩ := cf
        simp only
        by_cases hc : c ≠ model
        · rw [if_pos hc]
          constructor
          · intro h; cases h; exact .varClass l c f ha hl hns hc
          · intro h
            cases h with
            | undeclared h1 => simp_all
            | noField m' h1 h2 => simp_all
            | actionClass m' c f h1 h2 => rfl
            | call m' f h1 h2 => simp_all
            | raw l h1 => simp_all
            | varClass l c f h1 => rfl
            | text l f e h1 => simp_all
        · rw [if_neg hc]
          have hc' : c = model := Classical.not_not.1 hc
          subst hc'
          cases hp : ext.parseValue l.value with
          | error e' =>
            simp only [valArg]
            constructor
            · intro h; cases h; exact .text l f e ha hl hns hp
            · intro h
              cases h with
              | undeclared h1 => simp_all
              | noField m' h1 h2 => simp_all
              | actionClass m' c f h1 h2 => simp_all
              | call m' f h1 h2 => simp_all
              | raw l h1 => simp_all
              | varClass l c f h1 => simp_all
              | text l f e h1 => simp_all
          | ok u =>
            simp only [valArg]
            constructor
            · intro h; cases h
            · intro h
              cases h with
              | undeclared h1 => simp_all
              | noField m' h1 h2 => simp_all
              | actionClass m' c f h1 h2 => simp_all
              | call m' f h1 h2 => simp_all
              | raw l h1 => simp_all
              | varClass l c f h1 => simp_all
              | text l f e h1 => simp_all

theorem refArgs_error (ext : Ext ν κ μ) (lvars : Dict Str LvarMeta) (lacts : Dict Str LactMeta) (model : Str) (ns : List Str) (e : FErr) :
    refArgs ext lvars lacts model ns = .error e ↔
      ∃ pre n post as, ns = pre ++ n :: post ∧ RefsMean ext lvars lacts model pre as ∧ RefFault ext lvars lacts model n e := by
  induction ns with
  | nil => simp [refArgs]
  | cons k ns ih =>
    simp only [refArgs]
    cases hk : refArg ext lvars lacts model k with
    | error e' =>
      simp only
      constructor
      · intro h; cases h
        exact ⟨[], k, ns, [], rfl, .nil, (refArg_error ext lvars lacts model k e).1 hk⟩
      · rintro ⟨pre, n, post, as, he, hm, hf⟩
        cases hm with
        | nil =>
          simp only [List.nil_append, List.cons.injEq] at he
          obtain ⟨rfl, rfl⟩ := he
          have := (refArg_error ext lvars lacts model k e).2 hf
          rw [hk] at this; cases this; rfl
        | cons n' ns' f x as' h1 h2 =>
          simp only [List.cons_append, List.cons.injEq] at he
          obtain ⟨rfl, he⟩ := he
          have := (refArg_iff ext lvars lacts model k f x).2 h1
          rw [hk] at this; cases this
    | ok a =>
      obtain ⟨f, x⟩ := a
      have hx := (refArg_iff ext lvars lacts model k f x).1 hk
      simp only
      cases hr : refArgs ext lvars lacts model ns with
      | error e' =>
        simp only
        rw [hr] at ih
        constructor
        · intro h; cases h
          obtain ⟨pre, n, post, as, rfl, hm, hf⟩ := ih.1 rfl
          exact ⟨k :: pre, n, post, (f, x) :: as, rfl, .cons k pre f x as hx hm, hf⟩
        · rintro ⟨pre, n, post, as, he, hm, hf⟩
          cases hm with
          | nil =>
            simp only [List.nil_append, List.cons.injEq] at he
            obtain ⟨rfl, rfl⟩ := he
            have := (refArg_error ext lvars lacts model k e).2 hf
            rw [hk] at this; cases this
          | cons n' ns' f' x' as' h1 h2 =>
            simp only [List.cons_append, List.cons.injEq] at he
            obtain ⟨rfl, he⟩ := he
            have := ih.2 ⟨ns', n, post, as', he, h2, hf⟩
            cases this; rfl
      | ok bs =>
        simp only
        rw [hr] at ih
        constructor
        · intro h; cases h
        · rintro ⟨pre, n, post, as, he, hm, hf⟩
          cases hm with
          | nil =>
            simp only [List.nil_append, List.cons.injEq] at he
            obtain ⟨rfl, rfl⟩ := he
            have := (refArg_error ext lvars lacts model k e).2 hf
            rw [hk] at this; cases this
          | cons n' ns' f' x' as' h1 h2 =>
            simp only [List.cons_append, List.cons.injEq] at he
            obtain ⟨rfl, he⟩ := he
            have := ih.2 ⟨ns', n, post, as', he, h2, hf⟩
            cases this

theorem scalar_error (ext : Ext ν κ μ) (lvars : Dict Str LvarMeta) (lacts : Dict Str LactMeta) (s : Spec) (t : Nat) (ht : s.ty = .scalar t) (v : OutVal) (e : FErr)
    (h : scalarField ext lvars lacts t v = .error e) : Fault ext lvars lacts s v e := by
  unfold scalarField at h
  split at h
  · next n =>
    unfold scalarRef at h
    cases ha : lacts.get? n with
    | some m =>
      rw [ha] at h
      obtain ⟨hq, rfl⟩ := (mkAction_error ext n m e).1 ((actionField_error _ _).1 h)
      exact .call n m (Or.inl ⟨t, ht⟩) ha hq
    | none =>
      rw [ha] at h
      simp only at h
      cases hl : lvars.get? n with
      | none => rw [hl] at h; cases h; exact .undeclared t n ht ha hl
      | some l =>
        rw [hl] at h
        rcases (convertTo_error ext t _ e).1 h with h | ⟨u, h1, h2⟩
        · exact .readVar t n l e ht ha hl h
        · exact .convertVar t n l u e ht ha hl h1 h2
  · next ns hns =>
    cases h
    refine .many t ns ht (fun hl => ?_)
    match ns, hl, hns with
    | [n], _, hns => exact hns n rfl
  · next h1 h2 =>
    rcases (convertTo_error ext t _ e).1 h with h | ⟨u, h3, h4⟩
    · exact .readLit t v e ht (fun ns hv => h2 ns hv) h
    · exact .convertLit t v u e ht (fun ns hv => h2 ns hv) h3 h4

theorem not_direct {lacts : Dict Str LactMeta} {ns : List Str} (hd : direct? lacts ns = none) : ∀ k m, ns = [k] → lacts.get? k = some m → m.model ≠ none := by
  intro k m h1 h2 h3
  rw [(direct?_iff lacts ns k m).2 ⟨h1, h2, h3⟩] at hd
  cases hd

theorem build_error (ext : Ext ν κ μ) (c : Str) (as : List (Str × Arg ν κ)) (e : FErr) (h : build ext c (mkKwargs as) = .error e) :
    (∀ f a, (mkKwargs as).get? f ≠ some (.action a)) ∧ ext.construct c (mkKwargs as) = .error e := by
  unfold build at h
  have hiff := hasActions_iff (mkKwargs as) (mkKwargs_spec as).1
  by_cases hh : hasActions (mkKwargs as) = true
  · rw [if_pos hh] at h; cases h
  · rw [if_neg hh] at h
    exact ⟨fun f a hc => hh (hiff.2 ⟨f, a, hc⟩), h⟩

theorem build_ok (ext : Ext ν κ μ) (c : Str) (as : List (Str × Arg ν κ)) (i : μ) (h : build ext c (mkKwargs as) = .ok i) :
    (∃ f a, (mkKwargs as).get? f = some (.action a)) ∧ i = ext.constructRaw c (mkKwargs as) ∨
      (∀ f a, (mkKwargs as).get? f ≠ some (.action a)) ∧ ext.construct c (mkKwargs as) = .ok i := by
  unfold build at h
  have hiff := hasActions_iff (mkKwargs as) (mkKwargs_spec as).1
  by_cases hh : hasActions (mkKwargs as) = true
  · rw [if_pos hh] at h; cases h
    exact Or.inl ⟨hiff.1 hh, rfl⟩
  · rw [if_neg hh] at h
    exact Or.inr ⟨fun f a hc => hh (hiff.2 ⟨f, a, hc⟩), h⟩

theorem model_error (ext : Ext ν κ μ) (lvars : Dict Str LvarMeta) (lacts : Dict Str LactMeta) (s : Spec) (c : Str) (ht : s.ty = .model c) (v : OutVal) (e : FErr)
    (h : modelField ext lvars lacts s c v = .error e) : Fault ext lvars lacts s v e := by
  unfold modelField at h
  split at h
  · next ns =>
    cases hd : direct? lacts ns with
    | some nm =>
      obtain ⟨n, m⟩ := nm
      obtain ⟨rfl, h2, h3⟩ := (direct?_iff lacts ns n m).1 hd
      rw [hd] at h
      obtain ⟨hq, rfl⟩ := (mkAction_error ext n m e).1 ((actionField_error _ _).1 h)
      exact .call n m (Or.inr ⟨⟨c, ht⟩, h3⟩) h2 hq
    | none =>
      rw [hd] at h
      simp only [modelMix] at h
      cases hr : refArgs ext lvars lacts c ns with
      | error e' =>
        rw [hr] at h; cases h
        obtain ⟨pre, n, post, as, rfl, h1, h2⟩ := (refArgs_error ext lvars lacts c ns e).1 hr
        exact .reference c pre n post as e ht (not_direct hd) h1 h2
      | ok as =>
        rw [hr] at h
        simp only at h
        have hm := (refArgs_iff ext lvars lacts c ns as).1 hr
        cases hb : build ext c (mkKwargs as) with
        | error e' =>
          rw [hb] at h; cases h
          obtain ⟨h1, h2⟩ := build_error ext c as e hb
          exact .refused c ns as (mkKwargs as) e ht hm (mkKwargs_spec as) h1 h2
        | ok i =>
          rw [hb] at h
          simp only at h
          cases hv : ext.validators s i with
          | error e' =>
            rw [hv] at h; cases h
            exact .invalid c ns as (mkKwargs as) i e ht hm (mkKwargs_spec as) (build_ok ext c as i hb) hv
          | ok j => rw [hv] at h; cases h
  · next hv =>
    cases h
    exact .literal v (fun t h => by rw [ht] at h; cases h) (fun ns h => hv ns h)

theorem resolveField_error (ext : Ext ν κ μ) (lvars : Dict Str LvarMeta) (lacts : Dict Str LactMeta) (specs : List Spec) (f : Str) (v : OutVal) (s : Spec)
    (hs : Operable.get Spec.name specs f = some s) (e : FErr) (h : resolveField ext lvars lacts specs f v = .error e) : Fault ext lvars lacts s v e := by
  unfold resolveField at h
  rw [hs] at h
  simp only at h
  cases ht : s.ty with
  | scalar t => rw [ht] at h; exact scalar_error ext lvars lacts s t ht v e h
  | model c => rw [ht] at h; exact model_error ext lvars lacts s c ht v e h
  | other =>
    rw [ht] at h
    simp only [otherField] at h
    split at h
    · cases h; exact .type_ _ ht
    · next hv =>
      cases h
      exact .literal v (fun t h => by rw [ht] at h; cases h) (fun ns h => hv ns h)

theorem direct_none {lacts : Dict Str LactMeta} {ns : List Str} (h : ∀ k m, ns = [k] → lacts.get? k = some m → m.model ≠ none) : direct? lacts ns = none := by
  cases hd : direct? lacts ns with
  | none => rfl
  | some nm =>
    obtain ⟨n, m⟩ := nm
    obtain ⟨e1, e2, e3⟩ := (direct?_iff lacts ns n m).1 hd
    exact absurd e3 (h n m e1 e2)

/-- References that mean keyword arguments are not a direct action. -/
theorem refsMean_direct {ext : Ext ν κ μ} {lvars : Dict Str LvarMeta} {lacts : Dict Str LactMeta} {c : Str} {ns : List Str} {as : List (Str × Arg ν κ)}
    (h : RefsMean ext lvars lacts c ns as) : direct? lacts ns = none := by
  refine direct_none (fun k m hk hm hn => ?_)
  cases h with
  | nil => cases hk
  | cons n ns f x as h1 h2 =>
    cases hk
    cases h1 with
    | action m' a h3 h4 => rw [hm] at h3; cases h3; rw [hn] at h4; cases h4
    | var l v h3 => rw [hm] at h3; cases h3

theorem literal_scalar (ext : Ext ν κ μ) (lvars : Dict Str LvarMeta) (lacts : Dict Str LactMeta) (t : Nat) (v : OutVal) (h : ∀ ns, v ≠ .refs ns) :
    scalarField ext lvars lacts t v = convertTo ext t (ext.lit v) := by
  unfold scalarField
  split
  · exact absurd rfl (h _)
  · exact absurd rfl (h _)
  · rfl

theorem fault_error (ext : Ext ν κ μ) (lvars : Dict Str LvarMeta) (lacts : Dict Str LactMeta) (specs : List Spec) (f : Str) (v : OutVal) (s : Spec)
    (hs : Operable.get Spec.name specs f = some s) (e : FErr) (h : Fault ext lvars lacts s v e) : resolveField ext lvars lacts specs f v = .error e := by
  unfold resolveField
  rw [hs]
  simp only
  cases h with
  | literal _ h1 h2 =>
    cases ht : s.ty with
    | scalar t => exact absurd ht (h1 t)
    | model c =>
      simp only [modelField]
      all_goals first | rfl | (split; exact absurd rfl (h2 _); rfl)
    | other =>
      simp only [otherField]
      all_goals first | rfl | (split; exact absurd rfl (h2 _); rfl)
  | type_ ns ht => rw [ht]; rfl
  | many t ns ht hl =>
    rw [ht]
    simp only [scalarField]
    match ns, hl with
    | [], _ => rfl
    | [n], hl => exact absurd rfl hl
    | _ :: _ :: _, _ => rfl
  | undeclared t n ht ha hl =>
    rw [ht]
    simp only [scalarField, scalarRef, ha, hl]
  | call n m hty ha hp =>
    have hm := (mkAction_error ext n m .value).2 ⟨hp, rfl⟩
    rcases hty with ⟨t, ht⟩ | ⟨⟨c, ht⟩, hn⟩
    · rw [ht]
      simp only [scalarField, scalarRef, ha, hm, actionField]
    · rw [ht]
      simp only [modelField, (direct?_iff lacts [n] n m).2 ⟨rfl, ha, hn⟩, hm, actionField]
  | readLit t _ _ ht h1 h2 =>
    rw [ht]
    simp only [literal_scalar ext lvars lacts t v h1]
    exact (convertTo_error ext t _ e).2 (Or.inl h2)
  | readVar t n l _ ht ha hl h2 =>
    rw [ht]
    simp only [scalarField, scalarRef, ha, hl]
    exact (convertTo_error ext t _ e).2 (Or.inl h2)
  | convertLit t _ u _ ht h1 h2 h3 =>
    rw [ht]
    simp only [literal_scalar ext lvars lacts t v h1]
    exact (convertTo_error ext t _ e).2 (Or.inr ⟨u, h2, h3⟩)
  | convertVar t n l u _ ht ha hl h2 h3 =>
    rw [ht]
    simp only [scalarField, scalarRef, ha, hl]
    exact (convertTo_error ext t _ e).2 (Or.inr ⟨u, h2, h3⟩)
  | reference c pre n post as _ ht hd h1 h2 =>
    rw [ht]
    simp only [modelField, direct_none hd, modelMix, (refArgs_error ext lvars lacts c _ e).2 ⟨pre, n, post, as, rfl, h1, h2⟩]
  | refused c ns as kw _ ht h1 h2 h3 h4 =>
    rw [ht]
    rw [dict_eq_kwargs h2] at h3 h4
    have hb : build ext c (mkKwargs as) = .error e := by
      unfold build
      rw [if_neg (fun hh => by obtain ⟨g, a, ha⟩ := (hasActions_iff (mkKwargs as) (mkKwargs_spec as).1).1 hh; exact h3 g a ha)]
      exact h4
    simp only [modelField, refsMean_direct h1, modelMix, (refArgs_iff ext lvars lacts c ns as).2 h1, hb]
  | invalid c ns as kw i _ ht h1 h2 h3 h4 =>
    rw [ht]
    rw [dict_eq_kwargs h2] at h3
    have hb : build ext c (mkKwargs as) = .ok i := by
      unfold build
      have hiff := hasActions_iff (mkKwargs as) (mkKwargs_spec as).1
      rcases h3 with ⟨hfa, hi⟩ | ⟨hno, hi⟩
      · rw [if_pos (hiff.2 hfa), hi]
      · rw [if_neg (fun hh => by obtain ⟨g, a, ha⟩ := hiff.1 hh; exact hno g a ha), hi]
    simp only [modelField, refsMean_direct h1, modelMix, (refArgs_iff ext lvars lacts c ns as).2 h1, hb, h4]

/-! ### C256 -/

/-- Names of specifications are unique (`Operable` refuses anything else). -/
def UniqueNames (specs : List Spec) : Prop := ∀ s ∈ specs, ∀ t ∈ specs, s.name ≠ none → s.name = t.name → s = t

theorem opget_unique {specs : List Spec} (hu : UniqueNames specs) {f : Str} {s : Spec} (hs : s ∈ specs) (hn : s.name = some f) : Operable.get Spec.name specs f = some s := by
  obtain ⟨t, ht⟩ := opget_ex hs hn
  obtain ⟨h1, h2⟩ := opget_some ht
  rw [ht, hu s hs t h1 (by rw [hn]; nofun) (by rw [hn, h2])]

theorem report_iff (ext : Ext ν κ μ) (lvars : Dict Str LvarMeta) (lacts : Dict Str LactMeta) (specs : List Spec) (hu : UniqueNames specs) (out : Dict Str OutVal)
    (hall : ∀ f ∈ out.keys, ∃ s ∈ specs, s.name = some f) (st : LoopSt ν κ μ) (es : List FErr) :
    (out.foldl (loopStep ext lvars lacts specs) st).errs = st.errs ++ es ↔ Report ext lvars lacts specs out es := by
  induction out generalizing st es with
  | nil =>
    simp only [List.foldl_nil, List.self_eq_append_right]
    constructor
    · rintro rfl; exact .nil
    · intro h; cases h; rfl
  | cons fv out ih =>
    obtain ⟨f, v⟩ := fv
    rw [List.foldl_cons]
    obtain ⟨s, hs, hn⟩ := hall f (by simp)
    have hall' : ∀ g ∈ Dict.keys out, ∃ s ∈ specs, s.name = some g := fun g hg => hall g (by simp [hg])
    have hop := opget_unique hu hs hn
    cases hr : resolveField ext lvars lacts specs f v with
    | error e =>
      have hstep : loopStep ext lvars lacts specs st (f, v) = { st with errs := st.errs ++ [e] } := by simp only [loopStep, hr]
      have hf := resolveField_error ext lvars lacts specs f v s hop e hr
      rw [hstep]
      constructor
      · intro h
        cases es with
        | nil =>
          exfalso
          have hex : ∀ (l : Dict Str OutVal) (st : LoopSt ν κ μ), ∃ t, (l.foldl (loopStep ext lvars lacts specs) st).errs = st.errs ++ t := by
            intro l
            induction l with
            | nil => intro st; exact ⟨[], by simp⟩
            | cons b l ihl =>
              intro st
              obtain ⟨t, ht⟩ := ihl (loopStep ext lvars lacts specs st b)
              rw [List.foldl_cons, ht]
              cases hb : resolveField ext lvars lacts specs b.1 b.2 with
              | error e' => exact ⟨e' :: t, by simp only [loopStep, hb]; simp⟩
              | ok r => exact ⟨t, by simp only [loopStep, hb]⟩
          obtain ⟨t, ht⟩ := hex out { st with errs := st.errs ++ [e] }
          rw [h] at ht
          simp at ht
        | cons e' es =>
          have h' : (out.foldl (loopStep ext lvars lacts specs) { st with errs := st.errs ++ [e] }).errs = (st.errs ++ [e']) ++ es := by rw [h]; simp
          have hee : e' = e := by
            have hex : ∀ (l : Dict Str OutVal) (st : LoopSt ν κ μ), ∃ t, (l.foldl (loopStep ext lvars lacts specs) st).errs = st.errs ++ t := by
              intro l
              induction l with
              | nil => intro st; exact ⟨[], by simp⟩
              | cons b l ihl =>
                intro st
                obtain ⟨t, ht⟩ := ihl (loopStep ext lvars lacts specs st b)
                rw [List.foldl_cons, ht]
                cases hb : resolveField ext lvars lacts specs b.1 b.2 with
                | error e' => exact ⟨e' :: t, by simp only [loopStep, hb]; simp⟩
                | ok r => exact ⟨t, by simp only [loopStep, hb]⟩
            obtain ⟨t, ht⟩ := hex out { st with errs := st.errs ++ [e] }
            rw [h] at ht
            simp at ht
            exact ht.1
          subst hee
          exact .bad f v s e' out es hs hn hf ((ih hall' { st with errs := st.errs ++ [e'] } es).1 h')
      · intro h
        cases h with
        | good _ _ s' x _ _ hs' hn' hm hrest =>
          have : s' = s := hu s' hs' s hs (by rw [hn']; nofun) (by rw [hn', hn])
          subst this
          obtain ⟨as, ha⟩ := (resolveField_iff ext lvars lacts specs f v x).2 s' hop hm
          rw [hr] at ha; cases ha
        | bad _ _ s' e' _ es' hs' hn' hf' hrest =>
          have : s' = s := hu s' hs' s hs (by rw [hn']; nofun) (by rw [hn', hn])
          subst this
          have he := fault_error ext lvars lacts specs f v s' hop e' hf'
          rw [hr] at he
          have hee : e = e' := by injection he
          rw [← hee, (ih hall' { st with errs := st.errs ++ [e] } es').2 hrest]
          simp
    | ok r =>
      obtain ⟨x, as⟩ := r
      obtain ⟨⟨s', hop', hm⟩, _⟩ := (resolveField_iff ext lvars lacts specs f v x).1 as hr
      rw [hop] at hop'; cases hop'
      have hstep : (loopStep ext lvars lacts specs st (f, v)).errs = st.errs := by simp only [loopStep, hr]
      have ih' := ih hall' (loopStep ext lvars lacts specs st (f, v)) es
      rw [hstep] at ih'
      rw [ih']
      constructor
      · intro h; exact .good f v s x out es hs hn hm h
      · intro h
        cases h with
        | good _ _ s' x' _ _ hs' hn' hm' hrest => exact hrest
        | bad _ _ s' e' _ es' hs' hn' hf' hrest =>
          have : s' = s := hu s' hs' s hs (by rw [hn']; nofun) (by rw [hn', hn])
          subst this
          have he := fault_error ext lvars lacts specs f v s' hop e' hf'
          rw [hr] at he; cases he

/-- C256: if the declarations are disjoint, the fields allowed and the required ones present, then the errors raised together are exactly one for each faulty field, in the order of
the OUT block; the fields after a faulty one are still checked, and a field that is right is never reported. -/
theorem C256_report (ext : Ext ν κ μ) (out : Dict Str OutVal) (lvars : Dict Str LvarMeta) (lacts : Dict Str LactMeta) (specs : List Spec) (hu : UniqueNames specs)
    (hd : ∀ n, n ∈ lvars.keys → n ∉ lacts.keys) (hall : ∀ f ∈ out.keys, ∃ s ∈ specs, s.name = some f)
    (hreq : ∀ s ∈ specs, s.required = true → ∃ n ∈ out.keys, s.name = some n) (es : List FErr) :
    (resolve ext out lvars lacts specs = .error (.group es) ↔ Report ext lvars lacts specs out es ∧ es ≠ []) ∧
    ((∃ o, resolve ext out lvars lacts specs = .ok o) ↔ Report ext lvars lacts specs out []) := by
  have hrep := fun es => report_iff ext lvars lacts specs hu out hall ⟨⟨[], []⟩, []⟩ es
  simp only [List.nil_append] at hrep
  have he : resolve ext out lvars lacts specs = finish (out.foldl (loopStep ext lvars lacts specs) ⟨⟨[], []⟩, []⟩) := by
    unfold resolve
    rw [if_neg (by
      rw [List.any_eq_true]
      rintro ⟨n, hn, hn'⟩
      exact hd n hn (by simpa using hn')), if_neg (by rw [(checkAllowed_iff _ _).2 hall]; simp), if_neg (by rw [(missing_iff _ _).2 hreq]; simp)]
  rw [he]
  unfold finish
  by_cases hz : (out.foldl (loopStep ext lvars lacts specs) ⟨⟨[], []⟩, []⟩).errs = []
  · rw [if_pos hz]
    refine ⟨⟨nofun, ?_⟩, ⟨fun _ => (hrep []).1 hz, fun _ => ⟨_, rfl⟩⟩⟩
    rintro ⟨h, hne⟩
    exact absurd (((hrep es).2 h).symm.trans hz) hne
  · rw [if_neg hz]
    refine ⟨⟨?_, ?_⟩, ⟨?_, fun h => absurd ((hrep []).2 h) hz⟩⟩
    · intro h
      cases h
      exact ⟨(hrep _).1 rfl, hz⟩
    · rintro ⟨h, _⟩
      rw [(hrep es).2 h]
    · rintro ⟨o, ho⟩; cases ho

/-- C256: no field is right and wrong at once, and nothing is wrong in two ways; every field is one or the other. -/
theorem C256_exclusive (ext : Ext ν κ μ) (lvars : Dict Str LvarMeta) (lacts : Dict Str LactMeta) (s : Spec) (f : Str) (hn : s.name = some f) (v : OutVal) :
    (∀ x e, Meaning ext lvars lacts s v x → ¬ Fault ext lvars lacts s v e) ∧
    (∀ e e', Fault ext lvars lacts s v e → Fault ext lvars lacts s v e' → e = e') ∧
    ((∃ x, Meaning ext lvars lacts s v x) ∨ ∃ e, Fault ext lvars lacts s v e) := by
  have hop : Operable.get Spec.name [s] f = some s := opget_unique (by
    intro a ha b hb _ _
    rw [List.mem_singleton] at ha hb
    rw [ha, hb]) (by simp) hn
  refine ⟨?_, ?_, ?_⟩
  · intro x e hm hf
    obtain ⟨as, ha⟩ := (resolveField_iff ext lvars lacts [s] f v x).2 s hop hm
    rw [fault_error ext lvars lacts [s] f v s hop e hf] at ha
    cases ha
  · intro e e' h h'
    have h1 := fault_error ext lvars lacts [s] f v s hop e h
    rw [fault_error ext lvars lacts [s] f v s hop e' h'] at h1
    cases h1; rfl
  · cases hr : resolveField ext lvars lacts [s] f v with
    | error e => exact Or.inr ⟨e, resolveField_error ext lvars lacts [s] f v s hop e hr⟩
    | ok r =>
      obtain ⟨x, as⟩ := r
      obtain ⟨⟨s', hop', hm⟩, _⟩ := (resolveField_iff ext lvars lacts [s] f v x).1 as hr
      rw [hop] at hop'; cases hop'
      exact Or.inl ⟨x, hm⟩

/-- Four fields: a class mismatch, a good one, a reference to nothing and a type that is neither scalar nor a model: three errors, in order. -/
example :
    resolve demoExt [(['r'], .refs [['z']]), (['s'], .refs [['b']]), (['o'], .refs [['q']]), (['t'], .refs [])]
        [(['b'], ⟨none, ['2']⟩), (['z'], ⟨some (['Q'], ['x']), ['1']⟩)] [] (demoSpecs ++ [⟨some ['t'], .other, false, 3⟩])
      = .error (.group [.mismatch, .value, .typeErr]) := by decide +kernel

end Verif.Resolver
