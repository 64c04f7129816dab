import Verif.Props.Resolver

/-!
# Collections of specs: C65, C107, C108
-/

set_option linter.unusedSectionVars false

namespace Verif.Operable

variable {σ ν : Type} [DecidableEq σ] [DecidableEq ν]

theorem hasDup_iff (l : List (Option ν)) : hasDup l = false ↔ l.Nodup := by
  induction l with
  | nil => simp [hasDup]
  | cons x xs ih => simp [hasDup, ih, List.nodup_cons]

/-- C65: a collection is accepted exactly when no two specs have the same name (two specs without a name count as having the same), and keeps specs and order. -/
theorem C65_unique_names (name : σ → Option ν) (specs : List σ) :
    ((∃ o, make name specs = .ok o) ↔ (specs.map name).Nodup) ∧ (∀ o, make name specs = .ok o → o = specs) ∧ (∀ e, make name specs = .error e → e = .valueError) := by
  unfold make
  cases h : hasDup (specs.map name) with
  | false =>
    simp only [Bool.false_eq_true, if_false]
    exact ⟨⟨fun _ => (hasDup_iff _).1 h, fun _ => ⟨specs, rfl⟩⟩, fun o ho => by cases ho; rfl, fun e he => by cases he⟩
  | true =>
    simp only [if_true]
    refine ⟨⟨fun ⟨o, ho⟩ => (by cases ho), fun hn => ?_⟩, fun o ho => (by cases ho), fun e he => (by cases he; rfl)⟩
    rw [← hasDup_iff, h] at hn
    cases hn

/-- C65: `get` returns a spec exactly when it has that name. -/
theorem C65_get (name : σ → Option ν) (specs : List σ) (h : make name specs = .ok specs) (k : ν) (s : σ) :
    get name specs k = some s ↔ s ∈ specs ∧ name s = some k := by
  have hnd := (C65_unique_names name specs).1.1 ⟨specs, h⟩
  constructor
  · intro hg
    unfold get at hg
    split at hg
    · exact Resolver.findName_spec name k specs s hg
    · cases hg
  · rintro ⟨hs, hn⟩
    unfold get
    rw [if_pos (by unfold checkAllowed; rw [List.all_eq_true]; intro x hx; simp only [List.mem_singleton] at hx; subst hx; simp only [decide_eq_true_eq]; exact List.mem_map.2 ⟨s, hs, hn⟩)]
    obtain ⟨t, ht⟩ := Resolver.findName_some name k specs s hs hn
    obtain ⟨t1, t2⟩ := Resolver.findName_spec name k specs t ht
    rw [ht, Resolver.nodup_map_inj name specs hnd t1 hs (by rw [t2, hn])]

theorem checkAllowed_iff (name : σ → Option ν) (specs : List σ) (ks : List ν) : checkAllowed name specs ks = true ↔ ∀ k ∈ ks, ∃ s ∈ specs, name s = some k := by
  unfold checkAllowed
  rw [List.all_eq_true]
  simp [List.mem_map]

/-- C65: a non-empty `include` selects exactly the specs with these names, once per name given, and is rejected exactly when a name is not there. -/
theorem C65_include (name : σ → Option ν) (specs : List σ) (h : make name specs = .ok specs) (inc : List ν) (hne : inc ≠ []) :
    ((∃ r, getSpecs name specs (some inc) none = .ok r) ↔ ∀ k ∈ inc, ∃ s ∈ specs, name s = some k) ∧
    (∀ r, getSpecs name specs (some inc) none = .ok r → r.map name = inc.map some ∧ ∀ s, s ∈ r ↔ s ∈ specs ∧ ∃ k ∈ inc, name s = some k) := by
  unfold getSpecs
  simp only [Option.isSome_some, Option.isSome_none, Bool.false_eq_true, and_false, if_false, Option.getD_some]
  rw [if_pos hne]
  cases hc : checkAllowed name specs inc with
  | false =>
    simp only [Bool.false_eq_true, if_false]
    refine ⟨⟨fun ⟨r, hr⟩ => (by cases hr), fun ha => ?_⟩, fun r hr => (by cases hr)⟩
    rw [(checkAllowed_iff name specs inc).2 ha] at hc
    cases hc
  | true =>
    simp only [if_true]
    have ha := (checkAllowed_iff name specs inc).1 hc
    refine ⟨⟨fun _ => ha, fun _ => ⟨_, rfl⟩⟩, fun r hr => ?_⟩
    cases hr
    refine ⟨?_, ?_⟩
    · clear hne hc
      induction inc with
      | nil => rfl
      | cons k ks ih =>
        obtain ⟨s, hs, hn⟩ := ha k (by simp)
        rw [List.filterMap_cons, (C65_get name specs h k s).2 ⟨hs, hn⟩]
        simp only [List.map_cons, hn]
        rw [ih (fun x hx => ha x (by simp [hx]))]
    · intro s
      rw [List.mem_filterMap]
      constructor
      · rintro ⟨k, hk, hg⟩
        obtain ⟨h1, h2⟩ := (C65_get name specs h k s).1 hg
        exact ⟨h1, k, hk, h2⟩
      · rintro ⟨h1, k, hk, h2⟩
        exact ⟨k, hk, (C65_get name specs h k s).2 ⟨h1, h2⟩⟩

/-- C65: `exclude` removes exactly the specs with these names (unknown names are ignored) and keeps the order. -/
theorem C65_exclude (name : σ → Option ν) (specs : List σ) (h : make name specs = .ok specs) (exc : List ν) :
    ∃ r, getSpecs name specs none (some exc) = .ok r ∧ r.Sublist specs ∧ ∀ s, s ∈ r ↔ s ∈ specs ∧ ∀ k ∈ exc, name s ≠ some k := by
  unfold getSpecs
  simp only [Option.isSome_some, Option.isSome_none, Bool.false_eq_true, false_and, if_false, Option.getD_some, Option.getD_none, ne_eq, not_true_eq_false]
  by_cases he : exc = []
  · rw [if_neg (by simp [he])]
    exact ⟨specs, rfl, List.Sublist.refl _, by simp [he]⟩
  · rw [if_pos he]
    refine ⟨_, rfl, List.filter_sublist, ?_⟩
    intro s
    rw [List.mem_filter, decide_eq_true_eq, List.mem_filterMap]
    constructor
    · rintro ⟨h1, h2⟩
      exact ⟨h1, fun k hk hn => h2 ⟨k, hk, (C65_get name specs h k s).2 ⟨h1, hn⟩⟩⟩
    · rintro ⟨h1, h2⟩
      exact ⟨h1, fun ⟨k, hk, hg⟩ => h2 k hk ((C65_get name specs h k s).1 hg).2⟩

/-- C65: both at once are rejected; neither gives all specs. -/
theorem C65_both_neither (name : σ → Option ν) (specs : List σ) (inc exc : List ν) :
    getSpecs name specs (some inc) (some exc) = .error .valueError ∧ getSpecs name specs none none = .ok specs := by
  simp [getSpecs]

/-- Specs of the examples: a name and a number. -/
abbrev DemoSpec := Option Nat × Nat

example : make Prod.fst ([(some 1, 0), (some 2, 0), (none, 5)] : List DemoSpec) = .ok [(some 1, 0), (some 2, 0), (none, 5)] := by decide
example : make Prod.fst ([(some 1, 0), (some 1, 7)] : List DemoSpec) = .error .valueError := by decide
example : make Prod.fst ([(none, 0), (none, 7)] : List DemoSpec) = .error .valueError := by decide
example : getSpecs Prod.fst ([(some 1, 0), (some 2, 0), (none, 5)] : List DemoSpec) none (some [1, 9]) = .ok [(some 2, 0), (none, 5)] := by decide

/-! ### C107: an empty include set -/

/-- C107 fails: asking for none of the fields returns all of them. -/
theorem C107_empty_include_violation : getSpecs Prod.fst ([(some 1, 0), (some 2, 0)] : List DemoSpec) (some []) none = .ok [(some 1, 0), (some 2, 0)] := by decide

/-- C107 in every other case: the names returned are those asked for. -/
theorem C107_include_partial (name : σ → Option ν) (specs : List σ) (h : make name specs = .ok specs) (inc : List ν) (hne : inc ≠ []) (r : List σ)
    (hr : getSpecs name specs (some inc) none = .ok r) (s : σ) : s ∈ r → ∃ k ∈ inc, name s = some k :=
  fun hs => ((((C65_include name specs h inc hne).2 r hr).2 s).1 hs).2

/-! ### C108: order of the included fields -/

/-- C108 fails: the order of the result is the iteration order of the set, so the same call may give different orders (of the fields of the generated model). -/
theorem C108_order_violation :
    getSpecs Prod.fst ([(some 1, 0), (some 2, 0)] : List DemoSpec) (some [1, 2]) none = .ok [(some 1, 0), (some 2, 0)] ∧
    getSpecs Prod.fst ([(some 1, 0), (some 2, 0)] : List DemoSpec) (some [2, 1]) none = .ok [(some 2, 0), (some 1, 0)] := by decide

/-- C108 up to order: two enumerations of the same set give permutations of each other. -/
theorem C108_perm_partial (name : σ → Option ν) (specs : List σ) (inc inc' : List ν) (hp : inc.Perm inc') (r r' : List σ)
    (hr : getSpecs name specs (some inc) none = .ok r) (hr' : getSpecs name specs (some inc') none = .ok r') : r.Perm r' := by
  unfold getSpecs at hr hr'
  simp only [Option.isSome_some, Option.isSome_none, Bool.false_eq_true, and_false, if_false, Option.getD_some, Option.getD_none, ne_eq, not_true_eq_false] at hr hr'
  by_cases hne : inc = []
  · subst hne
    have := hp.nil_eq
    subst this
    simp only [not_true_eq_false, if_false] at hr hr'
    cases hr; cases hr'; exact List.Perm.refl _
  · rw [if_pos hne] at hr
    rw [if_pos (fun e => hne (by subst e; exact hp.eq_nil))] at hr'
    split at hr
    · split at hr'
      · cases hr; cases hr'; exact hp.filterMap _
      · cases hr'
    · cases hr

end Verif.Operable
