import Verif.Model.ExcGroup

/-!
# C81: splitting an exception group separates cancellations from errors
-/

set_option linter.unusedSectionVars false
set_option linter.unusedSimpArgs false
set_option linter.unusedVariables false

namespace Verif.ExcGroup

variable {γ ε : Type}

/-- Specification: the leaves of a list of members, in order, each with the labels of the groups that enclose it, outermost first. -/
def leavesOf (above : List γ) : Forest γ ε → List (List γ × ε)
  | .nil => []
  | .leaf e r => (above, e) :: leavesOf above r
  | .group g m r => leavesOf (above ++ [g]) m ++ leavesOf above r

/-- The leaves of a group; of `None`, no leaves. -/
def leaves : Option (Group γ ε) → List (List γ × ε)
  | none => []
  | some g => leavesOf [g.label] g.members

/-- No group is empty, as Python guarantees for every exception group. -/
def NonEmptyGroups : Forest γ ε → Prop
  | .nil => True
  | .leaf _ r => NonEmptyGroups r
  | .group _ m r => m ≠ .nil ∧ NonEmptyGroups m ∧ NonEmptyGroups r

theorem leavesOf_derive (a : List γ) (g : γ) (f r : Forest γ ε) : leavesOf a (derive g f r) = leavesOf (a ++ [g]) f ++ leavesOf a r := by
  cases f <;> simp [derive, leavesOf]

theorem leavesOf_split (isC : ε → Bool) (f : Forest γ ε) : ∀ a,
    leavesOf a (splitMembers isC f).1 = (leavesOf a f).filter (fun x => isC x.2) ∧ leavesOf a (splitMembers isC f).2 = (leavesOf a f).filter (fun x => !isC x.2) := by
  induction f with
  | nil => intro a; exact ⟨rfl, rfl⟩
  | leaf e r ih =>
    intro a
    obtain ⟨h1, h2⟩ := ih a
    cases h : isC e <;> simp [splitMembers, h, leavesOf, h1, h2]
  | group g m r ihm ihr =>
    intro a
    obtain ⟨h1, h2⟩ := ihm (a ++ [g])
    obtain ⟨h3, h4⟩ := ihr a
    simp [splitMembers, leavesOf_derive, leavesOf, h1, h2, h3, h4]

theorem leaves_half (g : γ) (f : Forest γ ε) : leaves (half g f) = leavesOf [g] f := by
  cases f <;> rfl

/-- **C81**. The first result has exactly the cancellations among the leaves of the group, the second exactly the other leaves; order and multiplicity are kept, and every leaf keeps the chain of groups around it. -/
theorem C81_split (isC : ε → Bool) (eg : Group γ ε) :
    leaves (splitCancellation isC eg).1 = (leaves (some eg)).filter (fun x => isC x.2) ∧
    leaves (splitCancellation isC eg).2 = (leaves (some eg)).filter (fun x => !isC x.2) := by
  unfold splitCancellation
  simp only [leaves_half]
  exact leavesOf_split isC eg.members [eg.label]

theorem derive_nonEmpty {g : γ} {f r : Forest γ ε} (hf : NonEmptyGroups f) (hr : NonEmptyGroups r) : NonEmptyGroups (derive g f r) := by
  cases f with
  | nil => exact hr
  | leaf e x => exact ⟨by simp, hf, hr⟩
  | group a b c => exact ⟨by simp, hf, hr⟩

theorem splitMembers_nonEmpty (isC : ε → Bool) (f : Forest γ ε) : NonEmptyGroups (splitMembers isC f).1 ∧ NonEmptyGroups (splitMembers isC f).2 := by
  induction f with
  | nil => exact ⟨trivial, trivial⟩
  | leaf e r ih => cases h : isC e <;> simp [splitMembers, h, NonEmptyGroups, ih.1, ih.2]
  | group g m r ihm ihr => exact ⟨derive_nonEmpty ihm.1 ihr.1, derive_nonEmpty ihm.2 ihr.2⟩

theorem leavesOf_ne_nil {f : Forest γ ε} (h : NonEmptyGroups f) : ∀ a, leavesOf a f = [] → f = .nil := by
  induction f with
  | nil => intro _ _; rfl
  | leaf e r ih => intro a h'; simp [leavesOf] at h'
  | group g m r ihm ihr =>
    intro a h'
    simp only [leavesOf, List.append_eq_nil_iff] at h'
    exact absurd (ihm h.2.1 _ h'.1) h.1

/-- **C81** (absence). A result is `None` exactly when the group has no leaf of that kind. -/
theorem C81_none (isC : ε → Bool) (eg : Group γ ε) :
    ((splitCancellation isC eg).1 = none ↔ ∀ x ∈ leaves (some eg), isC x.2 = false) ∧
    ((splitCancellation isC eg).2 = none ↔ ∀ x ∈ leaves (some eg), isC x.2 = true) := by
  have key : ∀ (f : Forest γ ε), NonEmptyGroups f → (half eg.label f = none ↔ leavesOf [eg.label] f = []) := by
    intro f hf
    constructor
    · intro h; cases f <;> first | rfl | (simp [half] at h)
    · intro h; rw [leavesOf_ne_nil hf _ h]; rfl
  obtain ⟨h1, h2⟩ := leavesOf_split isC eg.members [eg.label]
  obtain ⟨n1, n2⟩ := splitMembers_nonEmpty isC eg.members
  unfold splitCancellation
  constructor
  · rw [key _ n1, h1, List.filter_eq_nil_iff]; simp [leaves]
  · rw [key _ n2, h2, List.filter_eq_nil_iff]; simp [leaves]

/-- Results never contain an empty group, so they are legal Python exception groups. -/
theorem C81_legal (isC : ε → Bool) (eg g : Group γ ε) (h : (splitCancellation isC eg).1 = some g ∨ (splitCancellation isC eg).2 = some g) :
    g.label = eg.label ∧ g.members ≠ .nil ∧ NonEmptyGroups g.members := by
  have key : ∀ (f : Forest γ ε), NonEmptyGroups f → half eg.label f = some g → g.label = eg.label ∧ g.members ≠ .nil ∧ NonEmptyGroups g.members := by
    intro f hf h
    cases f with
    | nil => simp [half] at h
    | leaf e r => simp only [half, Option.some.injEq] at h; subst h; exact ⟨rfl, by simp, hf⟩
    | group e m r => simp only [half, Option.some.injEq] at h; subst h; exact ⟨rfl, by simp, hf⟩
  obtain ⟨n1, n2⟩ := splitMembers_nonEmpty isC eg.members
  rcases h with h | h
  · exact key _ n1 h
  · exact key _ n2 h

theorem splitMembers_none (isC : ε → Bool) (f : Forest γ ε) (hne : NonEmptyGroups f) : ∀ a, (∀ x ∈ leavesOf a f, isC x.2 = false) → splitMembers isC f = (.nil, f) := by
  induction f with
  | nil => intro a _; rfl
  | leaf e r ih =>
    intro a h
    have he : isC e = false := h (a, e) List.mem_cons_self
    have hr := ih hne a (fun x hx => h x (List.mem_cons_of_mem _ hx))
    simp [splitMembers, he, hr]
  | group g m r ihm ihr =>
    intro a h
    have hm := ihm hne.2.1 (a ++ [g]) (fun x hx => h x (List.mem_append.2 (Or.inl hx)))
    have hr := ihr hne.2.2 a (fun x hx => h x (List.mem_append.2 (Or.inr hx)))
    simp only [splitMembers, hm, hr]
    have h1 := hne.1
    cases m with
    | nil => exact absurd rfl h1
    | leaf e x => rfl
    | group b c d => rfl

/-- **C81** (`non_cancel_subgroup`). It keeps exactly the leaves that are no cancellations, and a group without cancellations is returned with its whole structure. -/
theorem C81_non_cancel (isC : ε → Bool) (eg : Group γ ε) :
    leaves (nonCancelSubgroup isC eg) = (leaves (some eg)).filter (fun x => !isC x.2) ∧
    (eg.members ≠ .nil → NonEmptyGroups eg.members → (∀ x ∈ leaves (some eg), isC x.2 = false) → nonCancelSubgroup isC eg = some eg) := by
  refine ⟨(C81_split isC eg).2, fun hn hne h => ?_⟩
  unfold nonCancelSubgroup splitCancellation
  rw [splitMembers_none isC eg.members hne [eg.label] h]
  obtain ⟨l, m⟩ := eg
  cases m with
  | nil => exact absurd rfl hn
  | leaf e x => rfl
  | group b c d => rfl

/-- A nested group: cancellations 10 and 11, errors 1 and 2, and a sub-group with cancellations only. -/
example : splitCancellation (fun n => decide (10 ≤ n)) (⟨"a", .leaf 1 (.group "b" (.leaf 10 (.leaf 2 .nil)) (.group "c" (.leaf 11 .nil) .nil))⟩ : Group String Nat) =
    (some ⟨"a", .group "b" (.leaf 10 .nil) (.group "c" (.leaf 11 .nil) .nil)⟩, some ⟨"a", .leaf 1 (.group "b" (.leaf 2 .nil) .nil)⟩) := by decide

end Verif.ExcGroup
