import Verif.Model.Resolver
import Verif.Py.ListLemmas

/-!
# LNDL reference resolution: C50, C51, C110
-/

set_option linter.unusedSectionVars false
set_option linter.unusedSimpArgs false
set_option linter.unusedVariables false

namespace Verif.Resolver

open Verif.Parser (Str OutVal)

variable {ν κ μ : Type}

/-! ### Specification: the meaning of an OUT field -/

/-- The names referenced by an OUT value. -/
def refsOf : OutVal → List Str
  | .refs ns => ns
  | _ => []

/-- `n` is a declared action, whose call parses: this is the resulting action. -/
def IsAction (ext : Ext ν κ μ) (lacts : Dict Str LactMeta) (n : Str) (a : Action κ) : Prop :=
  ∃ m, lacts.get? n = some m ∧ ext.parseCall m.call = some a.call ∧ a.raw = m.call ∧ a.name = n

/-- In a field of the model class `model`, a reference `n` contributes the keyword argument `f = x`: `n` is an action or a variable declared for that class. -/
inductive RefMeans (ext : Ext ν κ μ) (lvars : Dict Str LvarMeta) (lacts : Dict Str LactMeta) (model : Str) (n f : Str) : Arg ν κ → Prop where
  | action (m : LactMeta) (a : Action κ) : lacts.get? n = some m → m.model = some model → m.field = some f → IsAction ext lacts n a →
      RefMeans ext lvars lacts model n f (.action a)
  | var (l : LvarMeta) (v : ν) : lacts.get? n = none → lvars.get? n = some l → l.ns = some (model, f) → ext.parseValue l.value = .ok v → RefMeans ext lvars lacts model n f (.val v)

/-- The references `ns` contribute these arguments. -/
inductive RefsMean (ext : Ext ν κ μ) (lvars : Dict Str LvarMeta) (lacts : Dict Str LactMeta) (model : Str) : List Str → List (Str × Arg ν κ) → Prop where
  | nil : RefsMean ext lvars lacts model [] []
  | cons (n : Str) (ns : List Str) (f : Str) (x : Arg ν κ) (as : List (Str × Arg ν κ)) : RefMeans ext lvars lacts model n f x →
      RefsMean ext lvars lacts model ns as → RefsMean ext lvars lacts model (n :: ns) ((f, x) :: as)

/-- `kw` is the keyword dictionary of these arguments: its keys are the fields mentioned, in order of first mention, each with the last argument given for it. -/
def IsKwargs (as : List (Str × Arg ν κ)) (kw : Dict Str (Arg ν κ)) : Prop :=
  kw.WF ∧ kw.keys = (as.map (·.1)).eraseDups ∧ ∀ f, kw.get? f = (as.reverse.find? (fun a => decide (a.1 = f))).map (·.2)

/-- The value of an OUT field. -/
inductive Meaning (ext : Ext ν κ μ) (lvars : Dict Str LvarMeta) (lacts : Dict Str LactMeta) (s : Spec) : OutVal → FieldVal ν κ μ → Prop where
  /-- A literal of a scalar field is converted. -/
  | literal (t : Nat) (v : OutVal) (u w : ν) : s.ty = .scalar t → (∀ ns, v ≠ .refs ns) → ext.lit v = .ok u → ext.convert t u = .ok w → Meaning ext lvars lacts s v (.scalar w)
  /-- So is the value of the only variable referenced. -/
  | var (t : Nat) (n : Str) (l : LvarMeta) (u w : ν) : s.ty = .scalar t → lacts.get? n = none → lvars.get? n = some l → ext.parseValue l.value = .ok u → ext.convert t u = .ok w →
      Meaning ext lvars lacts s (.refs [n]) (.scalar w)
  /-- An action referenced from a scalar field. -/
  | scalarAction (t : Nat) (n : Str) (a : Action κ) : s.ty = .scalar t → IsAction ext lacts n a → Meaning ext lvars lacts s (.refs [n]) (.action a)
  /-- A direct action referenced from a model field. -/
  | directAction (c n : Str) (m : LactMeta) (a : Action κ) : s.ty = .model c → lacts.get? n = some m → m.model = none → IsAction ext lacts n a →
      Meaning ext lvars lacts s (.refs [n]) (.action a)
  /-- Variables and actions of a model class; the instance is validated in full unless an action is pending. -/
  | instance_ (c : Str) (ns : List Str) (as : List (Str × Arg ν κ)) (kw : Dict Str (Arg ν κ)) (i j : μ) : s.ty = .model c →
      (∀ n m, ns = [n] → lacts.get? n = some m → m.model ≠ none) → RefsMean ext lvars lacts c ns as → IsKwargs as kw →
      ((∃ f a, kw.get? f = some (.action a)) ∧ i = ext.constructRaw c kw ∨ (∀ f a, kw.get? f ≠ some (.action a)) ∧ ext.construct c kw = .ok i) →
      ext.validators s i = .ok j → Meaning ext lvars lacts s (.refs ns) (.inst j)

/-! ### Lemmas -/

theorem mkAction_iff (ext : Ext ν κ μ) (lacts : Dict Str LactMeta) (n : Str) (m : LactMeta) (h : lacts.get? n = some m) (a : Action κ) :
    mkAction ext n m = .ok a ↔ IsAction ext lacts n a := by
  unfold mkAction IsAction
  constructor
  · intro e
    cases hc : ext.parseCall m.call with
    | none => rw [hc] at e; cases e
    | some c =>
      rw [hc] at e
      simp only [Except.ok.injEq] at e
      subst e
      exact ⟨m, h, hc, rfl, rfl⟩
  · rintro ⟨m', h', h1, h2, h3⟩
    rw [h] at h'
    cases h'
    rw [h1]
    cases a
    simp_all

theorem actionField_iff (r : Except FErr (Action κ)) (x : FieldVal ν κ μ) (as : List (Action κ)) :
    actionField r = .ok (x, as) ↔ ∃ a, r = .ok a ∧ x = .action a ∧ as = [a] := by
  unfold actionField
  cases r with
  | error e => simp
  | ok a =>
    simp only [Except.ok.injEq, Prod.mk.injEq, exists_eq_left']
    constructor
    · rintro ⟨rfl, rfl⟩; exact ⟨rfl, rfl⟩
    · rintro ⟨rfl, rfl⟩; exact ⟨rfl, rfl⟩

theorem convertTo_iff (ext : Ext ν κ μ) (t : Nat) (p : Except FErr ν) (x : FieldVal ν κ μ) (as : List (Action κ)) :
    convertTo ext t p = .ok (x, as) ↔ ∃ v w, p = .ok v ∧ ext.convert t v = .ok w ∧ x = .scalar w ∧ as = [] := by
  cases p with
  | error e => simp [convertTo]
  | ok v =>
    simp only [convertTo]
    cases h : ext.convert t v with
    | error e =>
      simp only [reduceCtorEq, false_iff]
      rintro ⟨v', w, h1, h2, _⟩
      cases h1
      rw [h] at h2; cases h2
    | ok w =>
      constructor
      · intro e; cases e; exact ⟨v, w, rfl, h, rfl, rfl⟩
      · rintro ⟨v', w', h1, h2, rfl, rfl⟩
        cases h1
        rw [h] at h2; cases h2; rfl

theorem valArg_iff (f : Str) (p : Except FErr ν) (g : Str) (x : Arg ν κ) :
    valArg f p = .ok (g, x) ↔ ∃ v, p = .ok v ∧ g = f ∧ x = .val v := by
  cases p with
  | error e => simp [valArg]
  | ok v =>
    simp only [valArg]
    constructor
    · intro e; cases e; exact ⟨v, rfl, rfl, rfl⟩
    · rintro ⟨v', h, rfl, rfl⟩; cases h; rfl

theorem refArg_iff (ext : Ext ν κ μ) (lvars : Dict Str LvarMeta) (lacts : Dict Str LactMeta) (model n f : Str) (x : Arg ν κ) :
    refArg ext lvars lacts model n = .ok (f, x) ↔ RefMeans ext lvars lacts model n f x := by
  unfold refArg
  cases ha : lacts.get? n with
  | some m =>
    simp only
    unfold actionArg
    constructor
    · intro h
      split at h
      · next mo fi h1 h2 =>
        by_cases hm : mo = model
        · rw [if_neg (by simp [hm])] at h
          split at h
          · next a hact =>
            cases h
            exact RefMeans.action m a ha (by rw [h1, hm]) h2 ((mkAction_iff ext lacts n m ha a).1 hact)
          · cases h
        · rw [if_pos hm] at h; cases h
      · cases h
    · intro h
      cases h with
      | action m' a h1 h2 h3 h4 =>
        rw [ha] at h1
        cases h1
        rw [h2, h3]
        simp only
        rw [if_neg (by simp), (mkAction_iff ext lacts n m ha a).2 h4]
      | var l _ h1 => rw [ha] at h1; cases h1
  | none =>
    simp only
    cases hl : lvars.get? n with
    | none =>
      simp only
      constructor
      · intro h; cases h
      · intro h
        cases h with
        | action m a h1 => rw [ha] at h1; cases h1
        | var l _ h1 h2 => rw [hl] at h2; cases h2
    | some l =>
      simp only
      unfold lvarArg
      constructor
      · intro h
        split at h
        · cases h
        · next mo fi hns =>
          by_cases hm : mo = model
          · rw [if_neg (by simp [hm])] at h
            obtain ⟨v, h1, rfl, rfl⟩ := (valArg_iff _ _ _ _).1 h
            exact RefMeans.var l v ha hl (by rw [hns, hm]) h1
          · rw [if_pos hm] at h; cases h
      · intro h
        cases h with
        | action m a h1 => rw [ha] at h1; cases h1
        | var l' v h1 h2 h3 h4 =>
          rw [hl] at h2
          cases h2
          rw [h3]
          simp only
          rw [if_neg (by simp)]
          exact (valArg_iff _ _ _ _).2 ⟨v, h4, rfl, rfl⟩

theorem refArgs_iff (ext : Ext ν κ μ) (lvars : Dict Str LvarMeta) (lacts : Dict Str LactMeta) (model : Str) (ns : List Str) (as : List (Str × Arg ν κ)) :
    refArgs ext lvars lacts model ns = .ok as ↔ RefsMean ext lvars lacts model ns as := by
  induction ns generalizing as with
  | nil =>
    rw [refArgs]
    constructor
    · intro h; cases h; exact RefsMean.nil
    · intro h; cases h; rfl
  | cons n ns ih =>
    rw [refArgs]
    constructor
    · intro h
      split at h
      · cases h
      · next a ha =>
        split at h
        · cases h
        · next as' has =>
          cases h
          obtain ⟨f, x⟩ := a
          exact RefsMean.cons n ns f x as' ((refArg_iff ext lvars lacts model n f x).1 ha) ((ih as').1 has)
    · intro h
      cases h with
      | cons n ns f x as' h1 h2 =>
        rw [(refArg_iff ext lvars lacts model n f x).2 h1]
        simp only
        rw [(ih as').2 h2]

theorem mkKwargs_gen (as : List (Str × Arg ν κ)) (d : Dict Str (Arg ν κ)) (wf : d.WF) :
    (as.foldl (fun d a => d.set a.1 a.2) d).WF ∧
      ∀ f, (as.foldl (fun d a => d.set a.1 a.2) d).get? f = ((as.reverse.find? (fun a => decide (a.1 = f))).map (·.2)).or (d.get? f) := by
  induction as generalizing d with
  | nil => exact ⟨wf, by simp⟩
  | cons a as ih =>
    obtain ⟨h1, h2⟩ := ih (d.set a.1 a.2) (Dict.set_wf wf _ _)
    refine ⟨h1, fun f => ?_⟩
    rw [List.foldl_cons, h2, Dict.get?_set, List.reverse_cons, List.find?_append]
    cases hf : as.reverse.find? (fun a => decide (a.1 = f)) with
    | some b => simp
    | none =>
      by_cases ha : a.1 = f
      · simp [ha]
      · simp [ha, Ne.symm ha]

theorem mkKwargs_keys (as : List (Str × Arg ν κ)) (d : Dict Str (Arg ν κ)) :
    (as.foldl (fun d a => d.set a.1 a.2) d).keys = d.keys ++ ((as.map (·.1)).filter (fun k => decide (k ∉ d.keys))).eraseDups := by
  induction as generalizing d with
  | nil => simp
  | cons a as ih =>
    rw [List.foldl_cons, ih, List.map_cons]
    by_cases ha : a.1 ∈ d.keys
    · have hk : (d.set a.1 a.2).keys = d.keys := Dict.keys_set_of_mem _ ha
      rw [hk, List.filter_cons, if_neg (by simp [ha])]
    · have hk : (d.set a.1 a.2).keys = d.keys ++ [a.1] := by rw [Dict.set_of_notMem _ ha, Dict.keys_append]; rfl
      rw [hk, List.filter_cons, if_pos (by simp [ha]), List.eraseDups_cons, List.append_assoc]
      congr 2
      rw [List.singleton_append, List.filter_filter]
      congr 2
      apply List.filter_congr
      intro x _
      by_cases h1 : x ∈ d.keys <;> by_cases h2 : x = a.1 <;> simp [h1, h2]

theorem mkKwargs_spec (as : List (Str × Arg ν κ)) : IsKwargs as (mkKwargs as) := by
  obtain ⟨h1, h2⟩ := mkKwargs_gen as [] (by simp [Dict.WF])
  refine ⟨h1, ?_, fun f => by rw [mkKwargs, h2]; simp⟩
  rw [mkKwargs, mkKwargs_keys, List.filter_eq_self.2 (by simp)]
  rfl

theorem hasActions_iff (kw : Dict Str (Arg ν κ)) (wf : kw.WF) : hasActions kw = true ↔ ∃ f a, kw.get? f = some (.action a) := by
  unfold hasActions
  rw [List.any_eq_true]
  constructor
  · rintro ⟨⟨f, x⟩, hm, hx⟩
    cases x with
    | val v => simp [Arg.act?] at hx
    | action a => exact ⟨f, a, Dict.get?_of_mem wf hm⟩
  · rintro ⟨f, a, h⟩
    exact ⟨(f, .action a), Dict.mem_of_get? h, rfl⟩

theorem direct?_iff (lacts : Dict Str LactMeta) (ns : List Str) (n : Str) (m : LactMeta) :
    direct? lacts ns = some (n, m) ↔ ns = [n] ∧ lacts.get? n = some m ∧ m.model = none := by
  unfold direct?
  constructor
  · intro h
    split at h
    · next n' =>
      split at h
      · next m' hm =>
        split at h
        · next hn => cases h; exact ⟨rfl, hm, hn⟩
        · cases h
      · cases h
    · cases h
  · rintro ⟨rfl, h1, h2⟩
    simp only [h1, h2, if_true]

/-- The actions a field schedules: exactly those it references. -/
def FieldActions (ext : Ext ν κ μ) (lacts : Dict Str LactMeta) (v : OutVal) (as : List (Action κ)) : Prop :=
  (∀ a ∈ as, a.name ∈ refsOf v ∧ IsAction ext lacts a.name a) ∧ (∀ n ∈ refsOf v, lacts.get? n ≠ none → ∃ a ∈ as, a.name = n)

theorem refsMean_actions {ext : Ext ν κ μ} {lvars : Dict Str LvarMeta} {lacts : Dict Str LactMeta} {model : Str} {ns : List Str} {as : List (Str × Arg ν κ)}
    (h : RefsMean ext lvars lacts model ns as) : FieldActions ext lacts (.refs ns) (as.filterMap (fun a => a.2.act?)) := by
  induction h with
  | nil => exact ⟨by simp, by simp [refsOf]⟩
  | cons n ns f x as h1 h2 ih =>
    obtain ⟨ih1, ih2⟩ := ih
    cases h1 with
    | action m a e1 e2 e3 e4 =>
      have hn : a.name = n := by obtain ⟨_, _, _, _, h⟩ := e4; exact h
      refine ⟨?_, ?_⟩
      · intro b hb
        simp only [List.filterMap_cons, Arg.act?, List.mem_cons] at hb
        rcases hb with rfl | hb
        · exact ⟨by simp [refsOf, hn], by rw [hn]; exact e4⟩
        · obtain ⟨i1, i2⟩ := ih1 b (by simpa [Arg.act?] using hb)
          exact ⟨by simp only [refsOf, List.mem_cons] at *; exact Or.inr i1, i2⟩
      · intro k hk hne
        simp only [refsOf, List.mem_cons] at hk
        rcases hk with rfl | hk
        · exact ⟨a, by simp [Arg.act?], hn⟩
        · obtain ⟨b, hb, hbn⟩ := ih2 k hk hne
          exact ⟨b, by simp only [List.filterMap_cons, Arg.act?, List.mem_cons]; exact Or.inr (by simpa [Arg.act?] using hb), hbn⟩
    | var l _ e1 e2 e3 =>
      refine ⟨?_, ?_⟩
      · intro b hb
        simp only [List.filterMap_cons, Arg.act?] at hb
        obtain ⟨i1, i2⟩ := ih1 b (by simpa [Arg.act?] using hb)
        exact ⟨by simp only [refsOf, List.mem_cons] at *; exact Or.inr i1, i2⟩
      · intro k hk hne
        simp only [refsOf, List.mem_cons] at hk
        rcases hk with rfl | hk
        · exact absurd e1 hne
        · obtain ⟨b, hb, hbn⟩ := ih2 k hk hne
          exact ⟨b, by simp only [List.filterMap_cons, Arg.act?]; simpa [Arg.act?] using hb, hbn⟩

theorem isAction_actions {ext : Ext ν κ μ} {lacts : Dict Str LactMeta} {n : Str} {a : Action κ} (h : IsAction ext lacts n a) :
    FieldActions ext lacts (.refs [n]) [a] := by
  have hn : a.name = n := by obtain ⟨_, _, _, _, h⟩ := h; exact h
  refine ⟨?_, ?_⟩
  · intro b hb
    simp only [List.mem_singleton] at hb
    subst hb
    exact ⟨by simp [refsOf, hn], by rw [hn]; exact h⟩
  · intro k hk _
    simp only [refsOf, List.mem_singleton] at hk
    exact ⟨a, by simp, by rw [hn, hk]⟩

theorem scalarField_iff (ext : Ext ν κ μ) (lvars : Dict Str LvarMeta) (lacts : Dict Str LactMeta) (s : Spec) (t : Nat) (ht : s.ty = .scalar t) (v : OutVal) (x : FieldVal ν κ μ) :
    (∀ as, scalarField ext lvars lacts t v = .ok (x, as) → Meaning ext lvars lacts s v x ∧ FieldActions ext lacts v as) ∧
    (Meaning ext lvars lacts s v x → ∃ as, scalarField ext lvars lacts t v = .ok (x, as)) := by
  refine ⟨?_, ?_⟩
  · intro as h
    unfold scalarField at h
    split at h
    · next n =>
      unfold scalarRef at h
      cases ha : lacts.get? n with
      | some m =>
        rw [ha] at h
        obtain ⟨a, h1, h2, h3⟩ := (actionField_iff _ _ _).1 h
        have hact := (mkAction_iff ext lacts n m ha a).1 h1
        subst h2; subst h3
        exact ⟨Meaning.scalarAction t n a ht hact, isAction_actions hact⟩
      | none =>
        rw [ha] at h
        simp only at h
        cases hl : lvars.get? n with
        | none => rw [hl] at h; cases h
        | some l =>
          rw [hl] at h
          obtain ⟨u, w, h0, h1, h2, h3⟩ := (convertTo_iff _ _ _ _ _).1 h
          subst h2; subst h3
          refine ⟨Meaning.var t n l u w ht ha hl h0 h1, by simp, ?_⟩
          intro k hk hne
          simp only [refsOf, List.mem_singleton] at hk
          subst hk
          exact absurd ha hne
    · cases h
    · next v' hv hv' =>
      obtain ⟨u, w, h0, h1, h2, h3⟩ := (convertTo_iff _ _ _ _ _).1 h
      subst h2; subst h3
      have hno : ∀ ns, v ≠ .refs ns := fun ns e => by
        first
          | exact hv' ns e
          | exact hv ns e
      refine ⟨Meaning.literal t v u w ht hno h0 h1, by simp, ?_⟩
      cases v with
      | refs ns => exact absurd rfl (hno ns)
      | str => simp [refsOf]
      | num => simp [refsOf]
      | bool => simp [refsOf]
  · intro h
    cases h with
    | literal t' v u w h1 h2 h0 h3 =>
      rw [ht] at h1; cases h1
      refine ⟨[], ?_⟩
      cases v with
      | refs ns => exact absurd rfl (h2 ns)
      | str => exact (convertTo_iff _ _ _ _ _).2 ⟨u, w, h0, h3, rfl, rfl⟩
      | num => exact (convertTo_iff _ _ _ _ _).2 ⟨u, w, h0, h3, rfl, rfl⟩
      | bool => exact (convertTo_iff _ _ _ _ _).2 ⟨u, w, h0, h3, rfl, rfl⟩
    | var t' n l u w h1 h2 h3 h0 h4 =>
      rw [ht] at h1; cases h1
      refine ⟨[], ?_⟩
      simp only [scalarField, scalarRef, h2, h3]
      exact (convertTo_iff _ _ _ _ _).2 ⟨u, w, h0, h4, rfl, rfl⟩
    | scalarAction t' n a h1 h2 =>
      refine ⟨[a], ?_⟩
      obtain ⟨m, hm, _⟩ := id h2
      simp only [scalarField, scalarRef, hm]
      exact (actionField_iff _ _ _).2 ⟨a, (mkAction_iff ext lacts n m hm a).2 h2, rfl, rfl⟩
    | directAction c n m a h1 => rw [ht] at h1; cases h1
    | instance_ c ns as kw i j h1 => rw [ht] at h1; cases h1

theorem dict_ext {β : Type} : ∀ (d e : Dict Str β), d.WF → e.WF → d.keys = e.keys → (∀ f, d.get? f = e.get? f) → d = e
  | [], [], _, _, _, _ => rfl
  | [], (k, v) :: e, _, _, hk, _ => by simp at hk
  | (k, v) :: d, [], _, _, hk, _ => by simp at hk
  | (k, v) :: d, (k', v') :: e, hd, he, hk, hg => by
    simp only [Dict.keys_cons, List.cons.injEq] at hk
    obtain ⟨rfl, hk⟩ := hk
    simp only [Dict.WF, Dict.keys_cons, List.nodup_cons] at hd he
    have h1 := hg k
    rw [Dict.get?_cons, Dict.get?_cons] at h1
    simp only [if_true, Option.some.injEq] at h1
    subst h1
    have := dict_ext d e hd.2 he.2 hk (fun f => by
      have h := hg f
      rw [Dict.get?_cons, Dict.get?_cons] at h
      by_cases hf : k = f
      · subst hf
        rw [(Dict.get?_eq_none_iff _ _).2 hd.1, (Dict.get?_eq_none_iff _ _).2 (hk ▸ hd.1)]
      · simpa [hf] using h)
    rw [this]

theorem dict_eq_kwargs {as : List (Str × Arg ν κ)} {kw : Dict Str (Arg ν κ)} (h : IsKwargs as kw) : kw = mkKwargs as :=
  dict_ext _ _ h.1 (mkKwargs_spec as).1 (by rw [h.2.1, (mkKwargs_spec as).2.1]) (fun f => by rw [h.2.2, (mkKwargs_spec as).2.2])

theorem modelField_iff (ext : Ext ν κ μ) (lvars : Dict Str LvarMeta) (lacts : Dict Str LactMeta) (s : Spec) (c : Str) (ht : s.ty = .model c) (v : OutVal) (x : FieldVal ν κ μ) :
    (∀ as, modelField ext lvars lacts s c v = .ok (x, as) → Meaning ext lvars lacts s v x ∧ FieldActions ext lacts v as) ∧
    (Meaning ext lvars lacts s v x → ∃ as, modelField ext lvars lacts s c v = .ok (x, as)) := by
  refine ⟨?_, ?_⟩
  · intro as h
    unfold modelField at h
    split at h
    · next ns =>
      split at h
      · next n m hd =>
        obtain ⟨rfl, hm, hnone⟩ := (direct?_iff lacts ns n m).1 hd
        obtain ⟨a, h1, h2, h3⟩ := (actionField_iff _ _ _).1 h
        have hact := (mkAction_iff ext lacts n m hm a).1 h1
        subst h2; subst h3
        exact ⟨Meaning.directAction c n m a ht hm hnone hact, isAction_actions hact⟩
      · next hd =>
        unfold modelMix at h
        split at h
        · cases h
        · next args hargs =>
          split at h
          · cases h
          · next i hi =>
            split at h
            · cases h
            · next j hj =>
              cases h
              have hr := (refArgs_iff ext lvars lacts c ns args).1 hargs
              refine ⟨Meaning.instance_ c ns args (mkKwargs args) i j ht ?_ hr (mkKwargs_spec args) ?_ hj, refsMean_actions hr⟩
              · rintro n m rfl hm hnone
                rw [(direct?_iff lacts [n] n m).2 ⟨rfl, hm, hnone⟩] at hd
                cases hd
              · unfold build at hi
                have hiff := hasActions_iff (mkKwargs args) (mkKwargs_spec args).1
                split at hi
                · next hh => cases hi; exact Or.inl ⟨hiff.1 hh, rfl⟩
                · next hh => exact Or.inr ⟨fun f a e => hh (hiff.2 ⟨f, a, e⟩), hi⟩
    · cases h
  · intro h
    cases h with
    | literal t' v _ w h1 => rw [ht] at h1; cases h1
    | var t' n l _ w h1 => rw [ht] at h1; cases h1
    | scalarAction t' n a h1 => rw [ht] at h1; cases h1
    | directAction c' n m a h1 h2 h3 h4 =>
      refine ⟨[a], ?_⟩
      simp only [modelField, (direct?_iff lacts [n] n m).2 ⟨rfl, h2, h3⟩]
      exact (actionField_iff _ _ _).2 ⟨a, (mkAction_iff ext lacts n m h2 a).2 h4, rfl, rfl⟩
    | instance_ c' ns as kw i j h1 h2 h3 h4 h5 h6 =>
      rw [ht] at h1; cases h1
      refine ⟨as.filterMap (fun a => a.2.act?), ?_⟩
      have hd : direct? lacts ns = none := by
        cases hd : direct? lacts ns with
        | none => rfl
        | some nm =>
          obtain ⟨n, m⟩ := nm
          obtain ⟨e1, e2, e3⟩ := (direct?_iff lacts ns n m).1 hd
          exact absurd e3 (h2 n m e1 e2)
      have hb : build ext c (mkKwargs as) = .ok i := by
        rw [dict_eq_kwargs h4] at h5
        unfold build
        have hiff := hasActions_iff (mkKwargs as) (mkKwargs_spec as).1
        rcases h5 with ⟨hfa, hi⟩ | ⟨hno, hi⟩
        · rw [if_pos (hiff.2 hfa), hi]
        · rw [if_neg (fun hh => by obtain ⟨f, a, e⟩ := hiff.1 hh; exact hno f a e), hi]
      simp only [modelField, hd, modelMix, (refArgs_iff ext lvars lacts c ns as).2 h3, hb, h6]

/-- A field is resolved exactly to its meaning for the spec of that name, and schedules exactly the actions it references. -/
theorem resolveField_iff (ext : Ext ν κ μ) (lvars : Dict Str LvarMeta) (lacts : Dict Str LactMeta) (specs : List Spec) (f : Str) (v : OutVal) (x : FieldVal ν κ μ) :
    (∀ as, resolveField ext lvars lacts specs f v = .ok (x, as) →
      (∃ s, Operable.get Spec.name specs f = some s ∧ Meaning ext lvars lacts s v x) ∧ FieldActions ext lacts v as) ∧
    (∀ s, Operable.get Spec.name specs f = some s → Meaning ext lvars lacts s v x → ∃ as, resolveField ext lvars lacts specs f v = .ok (x, as)) := by
  refine ⟨?_, ?_⟩
  · intro as h
    unfold resolveField at h
    split at h
    · cases h
    · next s hs =>
      split at h
      · next t ht =>
        obtain ⟨h1, h2⟩ := (scalarField_iff ext lvars lacts s t ht v x).1 as h
        exact ⟨⟨s, hs, h1⟩, h2⟩
      · next c ht =>
        obtain ⟨h1, h2⟩ := (modelField_iff ext lvars lacts s c ht v x).1 as h
        exact ⟨⟨s, hs, h1⟩, h2⟩
      · unfold otherField at h
        split at h <;> cases h
  · intro s hs hm
    unfold resolveField
    rw [hs]
    simp only
    cases ht : s.ty with
    | scalar t => exact (scalarField_iff ext lvars lacts s t ht v x).2 hm
    | model c => exact (modelField_iff ext lvars lacts s c ht v x).2 hm
    | other =>
      cases hm with
      | literal t' v _ w h1 => rw [ht] at h1; cases h1
      | var t' n l _ w h1 => rw [ht] at h1; cases h1
      | scalarAction t' n a h1 => rw [ht] at h1; cases h1
      | directAction c' n m a h1 => rw [ht] at h1; cases h1
      | instance_ c' ns as kw i j h1 => rw [ht] at h1; cases h1

/-! The loop -/

theorem loopStep_errs (ext : Ext ν κ μ) (lvars : Dict Str LvarMeta) (lacts : Dict Str LactMeta) (specs : List Spec) (out : Dict Str OutVal) (st : LoopSt ν κ μ) :
    (out.foldl (loopStep ext lvars lacts specs) st).errs = [] ↔
      st.errs = [] ∧ ∀ fv ∈ out, ∃ r, resolveField ext lvars lacts specs fv.1 fv.2 = .ok r := by
  induction out generalizing st with
  | nil => simp
  | cons fv out ih =>
    rw [List.foldl_cons, ih]
    cases hr : resolveField ext lvars lacts specs fv.1 fv.2 with
    | error e =>
      simp only [loopStep, hr]
      constructor
      · rintro ⟨h, _⟩; simp at h
      · rintro ⟨_, h⟩
        obtain ⟨r, h⟩ := h fv (by simp)
        rw [hr] at h; cases h
    | ok r =>
      obtain ⟨x, as⟩ := r
      simp only [loopStep, hr, List.forall_mem_cons]
      constructor
      · rintro ⟨h1, h2⟩; exact ⟨h1, ⟨_, rfl⟩, h2⟩
      · rintro ⟨h1, _, h2⟩; exact ⟨h1, h2⟩

theorem addActions_get (d : Dict Str (Action κ)) (as : List (Action κ)) (n : Str) :
    ((addActions d as).get? n = d.get? n ∧ ∀ a ∈ as, a.name ≠ n) ∨ (∃ a ∈ as, a.name = n ∧ (addActions d as).get? n = some a) := by
  induction as generalizing d with
  | nil => exact Or.inl ⟨rfl, by simp⟩
  | cons a as ih =>
    have he : addActions d (a :: as) = addActions (d.set a.name a) as := rfl
    rw [he]
    rcases ih (d.set a.name a) with ⟨h1, h2⟩ | ⟨b, hb, h1, h2⟩
    · by_cases hn : a.name = n
      · exact Or.inr ⟨a, by simp, hn, by rw [h1, Dict.get?_set, if_pos (by first | exact hn | exact hn.symm)]⟩
      · left
        refine ⟨by rw [h1, Dict.get?_set, if_neg (by first | exact hn | exact Ne.symm hn)], ?_⟩
        intro b hb
        rw [List.mem_cons] at hb
        rcases hb with rfl | hb
        · exact hn
        · exact h2 b hb
    · exact Or.inr ⟨b, by simp [hb], h1, h2⟩

/-- State of the loop after all fields, if every field is resolved. -/
theorem loop_ok (ext : Ext ν κ μ) (lvars : Dict Str LvarMeta) (lacts : Dict Str LactMeta) (specs : List Spec) (out : Dict Str OutVal) (wf : out.WF) (st : LoopSt ν κ μ)
    (hk : ∀ k ∈ out.keys, k ∉ st.out.fields.keys) (hok : ∀ fv ∈ out, ∃ r, resolveField ext lvars lacts specs fv.1 fv.2 = .ok r) :
    (out.foldl (loopStep ext lvars lacts specs) st).out.fields.keys = st.out.fields.keys ++ out.keys ∧
    (∀ f, f ∉ out.keys → (out.foldl (loopStep ext lvars lacts specs) st).out.fields.get? f = st.out.fields.get? f) ∧
    (∀ f v, (f, v) ∈ out → ∃ x as, resolveField ext lvars lacts specs f v = .ok (x, as) ∧ (out.foldl (loopStep ext lvars lacts specs) st).out.fields.get? f = some x) ∧
    (∀ n, ((out.foldl (loopStep ext lvars lacts specs) st).out.actions.get? n = st.out.actions.get? n ∧ ∀ fv ∈ out, n ∈ refsOf fv.2 → lacts.get? n = none) ∨
      (∃ fv ∈ out, n ∈ refsOf fv.2) ∧ ∃ a, IsAction ext lacts n a ∧ (out.foldl (loopStep ext lvars lacts specs) st).out.actions.get? n = some a) := by
  induction out generalizing st with
  | nil => exact ⟨by simp, by simp, by simp, fun n => Or.inl ⟨rfl, by simp⟩⟩
  | cons fv out ih =>
    obtain ⟨f, v⟩ := fv
    obtain ⟨⟨x, as⟩, hr⟩ := hok (f, v) (by simp)
    have hfa := ((resolveField_iff ext lvars lacts specs f v x).1 as hr).2
    simp only [Dict.WF, Dict.keys_cons, List.nodup_cons] at wf
    have hfst : f ∉ st.out.fields.keys := hk f (by simp)
    have hstep : loopStep ext lvars lacts specs st (f, v) = { st with out := ⟨st.out.fields.set f x, addActions st.out.actions as⟩ } := by
      simp only [loopStep, hr]
    have hset := Dict.set_of_notMem x hfst
    obtain ⟨i1, i2, i3, i4⟩ := ih wf.2 (loopStep ext lvars lacts specs st (f, v)) (by
      intro k hkm
      rw [hstep]
      simp only [hset, Dict.keys_append, Dict.keys_cons, Dict.keys_nil, List.mem_append, List.mem_singleton]
      rintro (h | h)
      · exact hk k (by simp [hkm]) h
      · subst h; exact wf.1 hkm) (fun g hg => hok g (List.mem_cons_of_mem _ hg))
    rw [List.foldl_cons]
    refine ⟨?_, ?_, ?_, ?_⟩
    · rw [i1, hstep]
      simp only [hset, Dict.keys_append, Dict.keys_cons, Dict.keys_nil]
      simp
    · intro g hg
      simp only [Dict.keys_cons, List.mem_cons, not_or] at hg
      rw [i2 g hg.2, hstep]
      simp only [Dict.get?_set]
      rw [if_neg (by first | exact hg.1 | exact Ne.symm hg.1)]
    · intro g w hg
      rw [List.mem_cons] at hg
      rcases hg with hg | hg
      · cases hg
        refine ⟨x, as, hr, ?_⟩
        rw [i2 f wf.1, hstep]
        simp [Dict.get?_set]
      · exact i3 g w hg
    · intro n
      rcases i4 n with ⟨h1, h2⟩ | ⟨⟨g, hg, hn⟩, h2⟩
      · rcases addActions_get st.out.actions as n with ⟨a1, a2⟩ | ⟨a, ha, hn, hget⟩
        · left
          refine ⟨by rw [h1, hstep]; exact a1, ?_⟩
          intro g hg hgn
          rw [List.mem_cons] at hg
          rcases hg with rfl | hg
          · cases hl : lacts.get? n with
            | none => rfl
            | some m =>
              obtain ⟨a, ha, hna⟩ := hfa.2 n hgn (by rw [hl]; simp)
              exact absurd hna (a2 a ha)
          · exact h2 g hg hgn
        · right
          obtain ⟨b1, b2⟩ := hfa.1 a ha
          rw [hn] at b1 b2
          exact ⟨⟨(f, v), by simp, b1⟩, a, b2, by rw [h1, hstep]; exact hget⟩
      · exact Or.inr ⟨⟨g, List.mem_cons_of_mem _ hg, hn⟩, h2⟩

/-! Operable -/

theorem findName_spec {σ ν : Type} [DecidableEq ν] (name : σ → Option ν) (key : ν) (specs : List σ) (s : σ) (h : Operable.findName name key specs = some s) :
    s ∈ specs ∧ name s = some key := by
  induction specs with
  | nil => cases h
  | cons t ts ih =>
    rw [Operable.findName] at h
    split at h
    · next hn => cases h; exact ⟨by simp, hn⟩
    · obtain ⟨h1, h2⟩ := ih h
      exact ⟨by simp [h1], h2⟩

theorem findName_some {σ ν : Type} [DecidableEq ν] (name : σ → Option ν) (key : ν) (specs : List σ) (s : σ) (hs : s ∈ specs) (hn : name s = some key) :
    ∃ t, Operable.findName name key specs = some t := by
  induction specs with
  | nil => cases hs
  | cons t ts ih =>
    rw [Operable.findName]
    split
    · exact ⟨t, rfl⟩
    · next hne =>
      rw [List.mem_cons] at hs
      rcases hs with rfl | hs
      · exact absurd hn hne
      · exact ih hs

theorem opget_some {specs : List Spec} {f : Str} {s : Spec} (h : Operable.get Spec.name specs f = some s) : s ∈ specs ∧ s.name = some f := by
  unfold Operable.get at h
  split at h
  · exact findName_spec _ _ _ _ h
  · cases h

theorem checkAllowed_iff (specs : List Spec) (fs : List Str) : Operable.checkAllowed Spec.name specs fs = true ↔ ∀ f ∈ fs, ∃ s ∈ specs, s.name = some f := by
  unfold Operable.checkAllowed
  rw [List.all_eq_true]
  simp [List.mem_map]

theorem opget_ex {specs : List Spec} {f : Str} {s : Spec} (hs : s ∈ specs) (hn : s.name = some f) : ∃ t, Operable.get Spec.name specs f = some t := by
  unfold Operable.get
  rw [if_pos ((checkAllowed_iff specs [f]).2 (by intro g hg; simp only [List.mem_singleton] at hg; subst hg; exact ⟨s, hs, hn⟩))]
  exact findName_some _ _ _ s hs hn

theorem missing_iff (out : Dict Str OutVal) (specs : List Spec) : specs.any (missingSpec out) = false ↔ ∀ s ∈ specs, s.required = true → ∃ n ∈ out.keys, s.name = some n := by
  rw [List.any_eq_false]
  constructor
  · intro h s hs hr
    have := h s hs
    unfold missingSpec at this
    rw [hr] at this
    cases hn : s.name with
    | none => rw [hn] at this; simp at this
    | some n => rw [hn] at this; exact ⟨n, by simpa using this, rfl⟩
  · intro h s hs
    unfold missingSpec
    cases hr : s.required with
    | false => simp
    | true =>
      obtain ⟨n, hn, he⟩ := h s hs hr
      rw [he]; simpa using hn

theorem refsMean_declared {ext : Ext ν κ μ} {lvars : Dict Str LvarMeta} {lacts : Dict Str LactMeta} {c : Str} {ns : List Str} {as : List (Str × Arg ν κ)}
    (h : RefsMean ext lvars lacts c ns as) : ∀ n ∈ ns, n ∈ lvars.keys ∨ n ∈ lacts.keys := by
  induction h with
  | nil => simp
  | cons n ns f x as h1 h2 ih =>
    intro k hk
    rw [List.mem_cons] at hk
    rcases hk with rfl | hk
    · cases h1 with
      | action m a e1 => exact Or.inr (Dict.mem_keys_of_get? e1)
      | var l _ e1 e2 => exact Or.inl (Dict.mem_keys_of_get? e2)
    · exact ih k hk

theorem meaning_declared {ext : Ext ν κ μ} {lvars : Dict Str LvarMeta} {lacts : Dict Str LactMeta} {s : Spec} {v : OutVal} {x : FieldVal ν κ μ}
    (h : Meaning ext lvars lacts s v x) : ∀ n ∈ refsOf v, n ∈ lvars.keys ∨ n ∈ lacts.keys := by
  cases h with
  | literal t v _ w h1 h2 h3 =>
    cases v with
    | refs ns => exact absurd rfl (h2 ns)
    | str => simp [refsOf]
    | num => simp [refsOf]
    | bool => simp [refsOf]
  | var t n l _ w h1 h2 h3 => intro k hk; simp only [refsOf, List.mem_singleton] at hk; subst hk; exact Or.inl (Dict.mem_keys_of_get? h3)
  | scalarAction t n a h1 h2 =>
    intro k hk; simp only [refsOf, List.mem_singleton] at hk; subst hk
    obtain ⟨m, hm, _⟩ := h2
    exact Or.inr (Dict.mem_keys_of_get? hm)
  | directAction c n m a h1 h2 => intro k hk; simp only [refsOf, List.mem_singleton] at hk; subst hk; exact Or.inr (Dict.mem_keys_of_get? h2)
  | instance_ c ns as kw i j h1 h2 h3 => exact refsMean_declared h3

theorem nodup_map_inj {α β : Type} (f : α → β) (l : List α) (h : (l.map f).Nodup) {a b : α} (ha : a ∈ l) (hb : b ∈ l) (e : f a = f b) : a = b := by
  induction l with
  | nil => cases ha
  | cons c l ih =>
    rw [List.map_cons, List.nodup_cons] at h
    rw [List.mem_cons] at ha hb
    rcases ha with rfl | ha <;> rcases hb with rfl | hb
    · rfl
    · exact absurd (List.mem_map.2 ⟨b, hb, e.symm⟩) h.1
    · exact absurd (List.mem_map.2 ⟨a, ha, e⟩) h.1
    · exact ih h.2 ha hb

/-! ### C50 -/

/-- C50: a successful resolution means: no name is both a variable and an action; every OUT field is the name of a spec; every required spec has a field; every reference is declared.
The result has exactly the fields of the OUT block, in order, and each has its meaning for the spec of its name. -/
theorem C50_sound (ext : Ext ν κ μ) (out : Dict Str OutVal) (wf : out.WF) (lvars : Dict Str LvarMeta) (lacts : Dict Str LactMeta) (specs : List Spec) (o : Output ν κ μ)
    (h : resolve ext out lvars lacts specs = .ok o) :
    (∀ n, n ∈ lvars.keys → n ∉ lacts.keys) ∧ (∀ f ∈ out.keys, ∃ s ∈ specs, s.name = some f) ∧ (∀ s ∈ specs, s.required = true → ∃ n ∈ out.keys, s.name = some n) ∧
    (∀ f ns, (f, OutVal.refs ns) ∈ out → ∀ n ∈ ns, n ∈ lvars.keys ∨ n ∈ lacts.keys) ∧
    o.fields.keys = out.keys ∧
    (∀ f v, (f, v) ∈ out → ∃ s ∈ specs, s.name = some f ∧ ∃ x, o.fields.get? f = some x ∧ Meaning ext lvars lacts s v x) := by
  unfold resolve at h
  split at h
  · cases h
  · next h1 =>
    split at h
    · cases h
    · next h2 =>
      split at h
      · cases h
      · next h3 =>
        have h2' : Operable.checkAllowed Spec.name specs out.keys = true := by
          cases hc : Operable.checkAllowed Spec.name specs out.keys with
          | true => rfl
          | false => exact absurd hc h2
        unfold finish at h
        split at h
        · next he =>
          cases h
          have hok := ((loopStep_errs ext lvars lacts specs out _).1 he).2
          obtain ⟨l1, l2, l3, l4⟩ := loop_ok ext lvars lacts specs out wf ⟨⟨[], []⟩, []⟩ (by simp) hok
          refine ⟨?_, (checkAllowed_iff _ _).1 h2', (missing_iff _ _).1 (Bool.eq_false_iff.2 h3), ?_, by rw [l1]; simp, ?_⟩
          · intro n hn hn'
            apply h1
            rw [List.any_eq_true]
            exact ⟨n, hn, by simpa using hn'⟩
          · intro f ns hf
            obtain ⟨x, as, hr, _⟩ := l3 f _ hf
            obtain ⟨⟨s, _, hm⟩, _⟩ := (resolveField_iff ext lvars lacts specs f _ x).1 as hr
            exact meaning_declared hm
          · intro f v hf
            obtain ⟨x, as, hr, hg⟩ := l3 f v hf
            obtain ⟨⟨s, hs, hm⟩, _⟩ := (resolveField_iff ext lvars lacts specs f _ x).1 as hr
            obtain ⟨s1, s2⟩ := opget_some hs
            exact ⟨s, s1, s2, x, hg, hm⟩
        · cases h

/-- C50, the converse: when these conditions hold and every field has a meaning, the resolution succeeds.  (Names of specs are distinct, `Operable.__init__`.) -/
theorem C50_complete (ext : Ext ν κ μ) (out : Dict Str OutVal) (wf : out.WF) (lvars : Dict Str LvarMeta) (lacts : Dict Str LactMeta) (specs : List Spec)
    (hsp : (specs.map Spec.name).Nodup)
    (h1 : ∀ n, n ∈ lvars.keys → n ∉ lacts.keys) (h2 : ∀ s ∈ specs, s.required = true → ∃ n ∈ out.keys, s.name = some n)
    (h3 : ∀ f v, (f, v) ∈ out → ∃ s ∈ specs, s.name = some f ∧ ∃ x, Meaning ext lvars lacts s v x) :
    ∃ o, resolve ext out lvars lacts specs = .ok o := by
  unfold resolve
  rw [if_neg (by
    rw [List.any_eq_true]
    rintro ⟨n, hn, hn'⟩
    exact h1 n hn (by simpa using hn'))]
  have hall : Operable.checkAllowed Spec.name specs out.keys = true := (checkAllowed_iff _ _).2 (by
    intro f hf
    obtain ⟨⟨f', v⟩, hm, rfl⟩ := List.mem_map.1 hf
    obtain ⟨s, hs, hn, _⟩ := h3 f' v hm
    exact ⟨s, hs, hn⟩)
  rw [if_neg (by rw [hall]; simp), if_neg (by rw [(missing_iff _ _).2 h2]; simp)]
  have hok : ∀ fv ∈ out, ∃ r, resolveField ext lvars lacts specs fv.1 fv.2 = .ok r := by
    rintro ⟨f, v⟩ hfv
    obtain ⟨s, hs, hn, x, hm⟩ := h3 f v hfv
    obtain ⟨t, ht⟩ := opget_ex hs hn
    obtain ⟨t1, t2⟩ := opget_some ht
    have hts : t = s := by
      exact nodup_map_inj Spec.name specs hsp t1 hs (by rw [t2, hn])
    subst hts
    obtain ⟨as, hr⟩ := (resolveField_iff ext lvars lacts specs f v x).2 t ht hm
    exact ⟨_, hr⟩
  unfold finish
  rw [if_pos ((loopStep_errs ext lvars lacts specs out _).2 ⟨rfl, hok⟩)]
  exact ⟨_, rfl⟩

/-- C50: which error is raised when the conditions fail (in this order). -/
theorem C50_errors (ext : Ext ν κ μ) (out : Dict Str OutVal) (lvars : Dict Str LvarMeta) (lacts : Dict Str LactMeta) (specs : List Spec) :
    ((∃ n, n ∈ lvars.keys ∧ n ∈ lacts.keys) → resolve ext out lvars lacts specs = .error .collision) ∧
    ((∀ n, n ∈ lvars.keys → n ∉ lacts.keys) → (∃ f ∈ out.keys, ∀ s ∈ specs, s.name ≠ some f) → resolve ext out lvars lacts specs = .error .notAllowed) ∧
    ((∀ n, n ∈ lvars.keys → n ∉ lacts.keys) → (∀ f ∈ out.keys, ∃ s ∈ specs, s.name = some f) → (∃ s ∈ specs, s.required = true ∧ ∀ n ∈ out.keys, s.name ≠ some n) →
      resolve ext out lvars lacts specs = .error .missing) := by
  refine ⟨?_, ?_, ?_⟩
  · rintro ⟨n, h1, h2⟩
    unfold resolve
    rw [if_pos (by rw [List.any_eq_true]; exact ⟨n, h1, by simpa using h2⟩)]
  · rintro h1 ⟨f, hf, hno⟩
    unfold resolve
    rw [if_neg (by
      rw [List.any_eq_true]
      rintro ⟨n, hn, hn'⟩
      exact h1 n hn (by simpa using hn'))]
    rw [if_pos (Bool.eq_false_iff.2 (fun hc => by
      obtain ⟨s, hs, hn⟩ := (checkAllowed_iff _ _).1 hc f hf
      exact hno s hs hn))]
  · rintro h1 h2 ⟨s, hs, hr, hno⟩
    unfold resolve
    rw [if_neg (by
      rw [List.any_eq_true]
      rintro ⟨n, hn, hn'⟩
      exact h1 n hn (by simpa using hn'))]
    rw [if_neg (by rw [(checkAllowed_iff _ _).2 h2]; simp)]
    rw [if_pos (by
      cases hm : specs.any (missingSpec out) with
      | true => rfl
      | false =>
        obtain ⟨n, hn, he⟩ := (missing_iff _ _).1 hm s hs hr
        exact absurd he (hno n hn))]

/-! ### C51 -/

/-- C51: the actions of the output are exactly the declared actions referenced from the OUT block, each with its own call. -/
theorem C51_actions (ext : Ext ν κ μ) (out : Dict Str OutVal) (wf : out.WF) (lvars : Dict Str LvarMeta) (lacts : Dict Str LactMeta) (specs : List Spec) (o : Output ν κ μ)
    (h : resolve ext out lvars lacts specs = .ok o) (n : Str) :
    (n ∈ o.actions.keys ↔ n ∈ lacts.keys ∧ ∃ f ns, (f, OutVal.refs ns) ∈ out ∧ n ∈ ns) ∧
    (∀ a, o.actions.get? n = some a → ∃ m, lacts.get? n = some m ∧ ext.parseCall m.call = some a.call ∧ a.raw = m.call ∧ a.name = n) := by
  have h' := h
  unfold resolve at h
  split at h
  · cases h
  · split at h
    · cases h
    · split at h
      · cases h
      · unfold finish at h
        split at h
        · next he =>
          cases h
          have hok := ((loopStep_errs ext lvars lacts specs out _).1 he).2
          obtain ⟨l1, l2, l3, l4⟩ := loop_ok ext lvars lacts specs out wf ⟨⟨[], []⟩, []⟩ (by simp) hok
          have href : ∀ fv : Str × OutVal, n ∈ refsOf fv.2 → ∃ ns, fv.2 = .refs ns ∧ n ∈ ns := by
            rintro ⟨f, v⟩ hn
            cases v with
            | refs ns => exact ⟨ns, rfl, hn⟩
            | str => simp [refsOf] at hn
            | num => simp [refsOf] at hn
            | bool => simp [refsOf] at hn
          rcases l4 n with ⟨h1, h2⟩ | ⟨⟨fv, hfv, hn⟩, a, ha, hg⟩
          · have hnone : (List.foldl (loopStep ext lvars lacts specs) ⟨⟨[], []⟩, []⟩ out).out.actions.get? n = none := by rw [h1]; rfl
            refine ⟨⟨fun hk => ?_, ?_⟩, fun a ha => by rw [hnone] at ha; cases ha⟩
            · exact absurd hk ((Dict.get?_eq_none_iff _ _).1 hnone)
            · rintro ⟨hl, f, ns, hf, hn⟩
              have := h2 (f, .refs ns) hf hn
              exact absurd hl ((Dict.get?_eq_none_iff _ _).1 this)
          · refine ⟨⟨fun _ => ?_, fun _ => Dict.mem_keys_of_get? hg⟩, fun b hb => ?_⟩
            · obtain ⟨m, hm, _⟩ := ha
              obtain ⟨ns, e, hn'⟩ := href fv hn
              refine ⟨Dict.mem_keys_of_get? hm, fv.1, ns, ?_, hn'⟩
              rw [← e]; exact hfv
            · rw [hg] at hb
              cases hb
              exact ha
        · cases h

/-! ### Non-vacuity -/

/-- A small environment: values are texts, calls are texts; a model instance is its keyword dictionary. -/
def demoExt : Ext Str Str (List (Str × Arg Str Str)) where
  parseCall s := if s = [] then none else some s
  parseValue s := .ok s
  lit v := match v with | .str s => .ok s | .num s => .ok s | .bool b => if b then .ok ['t'] else .ok ['f'] | .refs _ => .ok []
  convert _ v := .ok v
  construct _ kw := .ok kw
  constructRaw _ kw := kw
  validators _ m := .ok m

def demoSpecs : List Spec := [⟨some ['r'], .model ['R'], true, 0⟩, ⟨some ['s'], .scalar 0, true, 1⟩, ⟨some ['o'], .scalar 1, false, 2⟩]

def demoLvars : Dict Str LvarMeta := [(['a'], ⟨some (['R'], ['x']), ['1']⟩), (['b'], ⟨none, ['2']⟩)]

def demoLacts : Dict Str LactMeta := [(['c'], ⟨some ['R'], some ['y'], ['f']⟩), (['d'], ⟨none, none, ['g']⟩)]

example : resolve demoExt [(['r'], .refs [['a'], ['c']]), (['s'], .refs [['b']])] demoLvars demoLacts demoSpecs =
    .ok ⟨[(['r'], .inst [(['x'], .val ['1']), (['y'], .action ⟨['c'], ['f'], ['f']⟩)]), (['s'], .scalar ['2'])], [(['c'], ⟨['c'], ['f'], ['f']⟩)]⟩ := by decide +kernel

example : resolve demoExt [(['r'], .refs [['a']])] demoLvars demoLacts demoSpecs = .error .missing := by decide +kernel

example : resolve demoExt [(['r'], .refs [['z']]), (['s'], .str ['q'])] demoLvars demoLacts demoSpecs = .error (.group [.value]) := by decide +kernel

/-! ### C110: every reference counts -/

/-- Two variables for the same model field: the first one is dropped without an error. -/
theorem C110_overwrite_violation :
    resolve demoExt [(['r'], .refs [['a'], ['e']]), (['s'], .str ['q'])] (demoLvars ++ [(['e'], ⟨some (['R'], ['x']), ['9']⟩)]) demoLacts demoSpecs =
      .ok ⟨[(['r'], .inst [(['x'], .val ['9'])]), (['s'], .scalar ['q'])], []⟩ := by decide +kernel

theorem refsMean_fields {ext : Ext ν κ μ} {lvars : Dict Str LvarMeta} {lacts : Dict Str LactMeta} {c : Str} {ns : List Str} {as : List (Str × Arg ν κ)}
    (h : RefsMean ext lvars lacts c ns as) : ∀ n ∈ ns, ∃ f x, (f, x) ∈ as ∧ RefMeans ext lvars lacts c n f x := by
  induction h with
  | nil => simp
  | cons n ns f x as h1 h2 ih =>
    intro k hk
    rw [List.mem_cons] at hk
    rcases hk with rfl | hk
    · exact ⟨f, x, by simp, h1⟩
    · obtain ⟨g, y, h3, h4⟩ := ih k hk
      exact ⟨g, y, by simp [h3], h4⟩

/-- C110 where it holds: when the references of a model field are for different fields of the class, every one of them arrives under its field. -/
theorem C110_all_arrive_partial (ext : Ext ν κ μ) (lvars : Dict Str LvarMeta) (lacts : Dict Str LactMeta) (c : Str) (ns : List Str) (as : List (Str × Arg ν κ))
    (h : RefsMean ext lvars lacts c ns as) (hnd : (as.map (·.1)).Nodup) (kw : Dict Str (Arg ν κ)) (hkw : IsKwargs as kw) :
    ∀ n ∈ ns, ∃ f x, kw.get? f = some x ∧ RefMeans ext lvars lacts c n f x := by
  intro n hn
  obtain ⟨f, x, hm, hr⟩ := refsMean_fields h n hn
  refine ⟨f, x, ?_, hr⟩
  rw [hkw.2.2]
  have hwf : Dict.WF (as.reverse : Dict Str (Arg ν κ)) := by
    unfold Dict.WF Dict.keys
    rw [List.map_reverse]
    exact (List.reverse_perm _).nodup_iff.2 hnd
  have hg := Dict.get?_of_mem hwf (List.mem_reverse.2 hm)
  have hfind : ∀ (l : List (Str × Arg ν κ)), (l.find? (fun a => decide (a.1 = f))).map (·.2) = Dict.get? l f := by
    intro l
    induction l with
    | nil => rfl
    | cons a l ih =>
      obtain ⟨g, y⟩ := a
      rw [List.find?_cons, Dict.get?_cons]
      by_cases hgf : g = f
      · simp [hgf]
      · simp [hgf, ih]
  rw [hfind]; exact hg

end Verif.Resolver
