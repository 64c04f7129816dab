import Verif.Model.ImportModule

set_option linter.unusedSectionVars false
set_option linter.unusedSimpArgs false
set_option linter.unusedVariables false

/-!
# C199: `import_module`
-/

namespace Verif.ImportModule

variable {α : Type}

/-! ### Specification -/

/-- A module of this name can be imported. -/
def Loads (W : World α) (n : Name) : Prop := n ≠ [] ∧ ∀ k, 0 < k → k ≤ n.length → W.loads (n.take k) = true

/-- `from n import a` binds `o`. -/
def Binds (W : World α) (n : Name) (a : String) (o : Obj α) : Prop :=
  (∃ v, W.attr n a = some v ∧ o = .value v) ∨ (W.attr n a = none ∧ Loads W (n ++ [a]) ∧ o = .module (n ++ [a]))

/-- The objects bound by `from n import a1, a2, ...`, in order. -/
inductive BindsAll (W : World α) (n : Name) : List String → List (Obj α) → Prop where
  | nil : BindsAll W n [] []
  | cons {a as o os} : Binds W n a o → BindsAll W n as os → BindsAll W n (a :: as) (o :: os)

/-- What the documentation promises to return. -/
def Returns (W : World α) (n : Name) : Names → Out α → Prop
  | .none, r => Loads W n ∧ r = .one (.module n)
  | .one a, r => Loads W n ∧ ∃ o, Binds W n a o ∧ r = .one o
  | .many as, r => Loads W n ∧ ∃ os, BindsAll W n as os ∧ r = .many os

/-! ### Lemmas -/

theorem importable_iff (W : World α) (n : Name) : importable W n = true ↔ Loads W n := by
  simp only [importable, Loads, Bool.and_eq_true, bne_iff_ne, ne_eq, List.all_eq_true, List.mem_range]
  constructor
  · rintro ⟨h1, h2⟩
    refine ⟨h1, ?_⟩
    intro k hk hl
    have := h2 (k - 1) (by omega)
    rwa [Nat.sub_add_cancel hk] at this
  · rintro ⟨h1, h2⟩
    exact ⟨h1, fun k hk => h2 (k + 1) (by omega) (by omega)⟩

theorem getAttr_iff (W : World α) (n : Name) (a : String) (o : Obj α) : getAttr W n a = .ok o ↔ Binds W n a o := by
  simp only [getAttr, Binds]
  cases h : W.attr n a with
  | some v => simp [eq_comm]
  | none =>
    by_cases hi : importable W (n ++ [a]) = true
    · simp only [hi, if_true]
      have := (importable_iff W (n ++ [a])).1 hi
      simp [this, eq_comm]
    · have hl : ¬ Loads W (n ++ [a]) := fun h' => hi ((importable_iff W _).2 h')
      simp [hi, hl]

theorem getAttrs_iff (W : World α) (n : Name) (as : List String) (os : List (Obj α)) : getAttrs W n as = .ok os ↔ BindsAll W n as os := by
  induction as generalizing os with
  | nil =>
    constructor
    · intro h; simp only [getAttrs, Except.ok.injEq] at h; rw [← h]; exact .nil
    · intro h; cases h; rfl
  | cons a as ih =>
    constructor
    · intro h
      simp only [getAttrs] at h
      cases ha : getAttr W n a with
      | error e => rw [ha] at h; cases h
      | ok v =>
        rw [ha] at h
        cases hs : getAttrs W n as with
        | error e => simp only [hs] at h; cases h
        | ok vs =>
          simp only [hs, Except.ok.injEq] at h
          rw [← h]
          exact .cons ((getAttr_iff W n a v).1 ha) ((ih vs).1 hs)
    · intro h
      cases h with
      | cons h1 h2 => simp only [getAttrs, (getAttr_iff W n a _).2 h1, (ih _).2 h2]

theorem fromOne_iff (W : World α) (n : Name) (a : String) (r : Out α) : fromOne W n a = .ok r ↔ Returns W n (.one a) r := by
  simp only [fromOne, Returns]
  by_cases hi : importable W n = true
  · simp only [hi, if_true, (importable_iff W n).1 hi, true_and]
    cases hg : getAttr W n a with
    | ok v =>
      have hv := (getAttr_iff W n a v).1 hg
      constructor
      · intro h; simp only [Except.ok.injEq] at h; exact ⟨v, hv, h.symm⟩
      · rintro ⟨o, ho, hr⟩
        have := (getAttr_iff W n a o).2 ho
        rw [hg] at this
        cases this
        rw [hr]
    | error e =>
      constructor
      · intro h; cases h
      · rintro ⟨o, ho, hr⟩
        have := (getAttr_iff W n a o).2 ho
        rw [hg] at this; cases this
  · have hl : ¬ Loads W n := fun h' => hi ((importable_iff W _).2 h')
    simp [hi, hl]

theorem fromMany_iff (W : World α) (n : Name) (as : List String) (r : Out α) : fromMany W n as = .ok r ↔ Returns W n (.many as) r := by
  simp only [fromMany, Returns]
  by_cases hi : importable W n = true
  · simp only [hi, if_true, (importable_iff W n).1 hi, true_and]
    cases hg : getAttrs W n as with
    | ok v =>
      have hv := (getAttrs_iff W n as v).1 hg
      constructor
      · intro h; simp only [Except.ok.injEq] at h; exact ⟨v, hv, h.symm⟩
      · rintro ⟨o, ho, hr⟩
        have := (getAttrs_iff W n as o).2 ho
        rw [hg] at this
        cases this
        rw [hr]
    | error e =>
      constructor
      · intro h; cases h
      · rintro ⟨o, ho, hr⟩
        have := (getAttrs_iff W n as o).2 ho
        rw [hg] at this; cases this
  · have hl : ¬ Loads W n := fun h' => hi ((importable_iff W _).2 h')
    simp [hi, hl]

/-! ### C199 -/

/-- The requests that are answered as documented: a top-level package, a single name, or a list of at least two names. -/
def Served (n : Name) : Names → Prop
  | .none => n.length ≤ 1
  | .one a => a ≠ ""
  | .many as => 2 ≤ as.length

/-- C199 for the requests `Served`: `import_module` returns the module, the attribute, or the list of attributes in order, and returns
nothing else. -/
theorem C199_returns_partial (W : World α) (n : Name) (r : Names) (hs : Served n r) (o : Out α) :
    importModule W n r = .ok o ↔ Returns W n r o := by
  cases r with
  | none =>
    simp only [importModule, plainImport, Returns]
    have ht : n.take 1 = n := List.take_of_length_le hs
    by_cases hi : importable W n = true
    · simp [hi, (importable_iff W n).1 hi, ht, eq_comm]
    · have hl : ¬ Loads W n := fun h' => hi ((importable_iff W _).2 h')
      simp [hi, hl]
  | one a =>
    simp only [importModule]
    rw [if_neg hs]
    exact fromOne_iff W n a o
  | many as =>
    cases as with
    | nil => simp [Served] at hs
    | cons a as =>
      cases as with
      | nil => simp [Served] at hs
      | cons b bs => simp only [importModule]; exact fromMany_iff W n _ o

/-- A package "a" with a submodule "a.b" that has the attribute "x". -/
def sampleWorld : World Nat where
  loads n := n == ["a"] || n == ["a", "b"]
  attr n s := if n = ["a", "b"] ∧ s = "x" then some 7 else none

theorem sample_loads : Loads sampleWorld ["a", "b"] := (importable_iff _ _).1 (by decide +kernel)

/-- C199 is refuted: `import_module("a", "b")` returns the package `a`, not the module `a.b` (the documentation shows the module). -/
theorem C199_submodule_violation :
    importModule sampleWorld ["a", "b"] .none = .ok (.one (.module ["a"])) ∧
    Returns sampleWorld ["a", "b"] .none (.one (.module ["a", "b"])) :=
  ⟨by decide +kernel, sample_loads, rfl⟩

/-- C199 is refuted: a list of one name gives the attribute, not a list with the attribute. -/
theorem C199_singleton_violation :
    importModule sampleWorld ["a", "b"] (.many ["x"]) = .ok (.one (.value 7)) ∧
    Returns sampleWorld ["a", "b"] (.many ["x"]) (.many [.value 7]) := by
  refine ⟨by decide +kernel, sample_loads, [.value 7], .cons (.inl ⟨7, by decide +kernel, rfl⟩) .nil, rfl⟩

/-- C199 is refuted: a missing attribute raises `AttributeError`, which is no `ImportError`. -/
theorem C199_missing_attribute_violation :
    importModule sampleWorld ["a", "b"] (.one "y") = .error .attributeError := by decide +kernel

/-- C199 for modules: a module that cannot be imported is reported as `ImportError`, whatever is asked for. -/
theorem C199_missing_module (W : World α) (n : Name) (r : Names) (h : ¬ Loads W n) : importModule W n r = .error .importError := by
  have hi : importable W n = false := by
    cases hb : importable W n with
    | false => rfl
    | true => exact absurd ((importable_iff W n).1 hb) h
  cases r with
  | none => simp [importModule, plainImport, hi]
  | one a => simp [importModule, plainImport, fromOne, hi]
  | many as =>
    cases as with
    | nil => simp [importModule, plainImport, hi]
    | cons a as =>
      cases as with
      | nil => simp [importModule, fromOne, hi]
      | cons b bs => simp [importModule, fromMany, hi]

example : Served ["a", "b"] (.one "x") ∧ importModule sampleWorld ["a", "b"] (.one "x") = .ok (.one (.value 7)) :=
  ⟨by simp [Served], by decide +kernel⟩
example : importModule sampleWorld ["a"] (.many ["b", "b"]) = .ok (.many [.module ["a", "b"], .module ["a", "b"]]) := by decide +kernel

end Verif.ImportModule
