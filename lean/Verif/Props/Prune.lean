import Verif.Model.Prune

set_option linter.unusedSectionVars false
set_option linter.unusedSimpArgs false
set_option linter.unusedVariables false

namespace Verif.Prune

variable {κ α : Type} [DecidableEq κ] [DecidableEq α]

/-! ## C73: specification -/

/-- Empty values: None, blank strings, empty containers. -/
inductive Empty : Val κ α → Prop
  | none : Empty .none
  | blank {s : List Char} : (∀ c ∈ s, Py.White c) → Empty (.str s)
  | coll (k : Kind) : Empty (.coll k .nil)

/-- Nothing strictly inside is empty, at any depth. -/
def NoEmptyInside : Val κ α → Prop
  | .coll _ items => NoEmptyInside items
  | .cons h t => ¬ Empty h ∧ NoEmptyInside h ∧ NoEmptyInside t
  | .kcons _ h t => ¬ Empty h ∧ NoEmptyInside h ∧ NoEmptyInside t
  | .scons h t => ¬ Empty h ∧ NoEmptyInside h ∧ NoEmptyInside t
  | _ => True

/-- Steps of a path. -/
inductive Step (κ : Type) where
  | into (k : Kind)
  | key (k : κ)
  deriving DecidableEq, Repr

/-- Values that matter: non-blank strings and other values. -/
inductive Leaf (α : Type) where
  | str (s : List Char)
  | other (a : α)
  deriving DecidableEq, Repr

/-- All such values with their paths (containers and dict keys passed), from left to right. -/
def leaves (p : List (Step κ)) : Val κ α → List (List (Step κ) × Leaf α)
  | .str s => if ∀ c ∈ s, Py.White c then [] else [(p, .str s)]
  | .other a => [(p, .other a)]
  | .coll k items => leaves (p ++ [.into k]) items
  | .cons h t => leaves p h ++ leaves p t
  | .kcons k h t => leaves (p ++ [.key k]) h ++ leaves p t
  | .scons h t => leaves p h ++ leaves p t
  | _ => []

/-- No set anywhere. -/
def NoSet : Val κ α → Prop
  | .coll _ items => NoSet items
  | .cons h t => NoSet h ∧ NoSet t
  | .kcons _ h t => NoSet h ∧ NoSet t
  | .scons _ _ => False
  | _ => True

/-! ### Proofs -/

theorem isEmpty_iff (v : Val κ α) : isEmpty v = true ↔ Empty v := by
  constructor
  · intro h
    unfold isEmpty at h
    split at h
    · exact .none
    · exact .blank (fun c hc => (Py.isSpace_iff c).1 (List.all_eq_true.1 h c hc))
    · exact .coll _
    · cases h
  · intro h
    cases h with
    | none => rfl
    | blank h => exact List.all_eq_true.2 (fun c hc => (Py.isSpace_iff c).2 (h c hc))
    | coll k => rfl

theorem leaves_empty {v : Val κ α} (h : isEmpty v = true) (p : List (Step κ)) : leaves p v = [] := by
  cases (isEmpty_iff v).1 h with
  | none => rfl
  | blank hb => simp only [leaves]; rw [if_pos hb]
  | coll k => rfl

theorem noEmpty_smem : ∀ {t x : Val κ α}, NoEmptyInside t → NoEmptyInside (sinsert x t) ∨ smem x t = false := by
  intro t x h
  simp only [sinsert]
  by_cases hm : smem x t = true
  · rw [if_pos hm]; exact Or.inl h
  · exact Or.inr (Bool.eq_false_iff.2 hm)

theorem noEmpty_prune (v : Val κ α) : NoEmptyInside (prune v) := by
  induction v using prune.induct with
  | case1 k items ih => simp only [prune, NoEmptyInside]; exact ih
  | case2 h t he ih => simp only [prune]; rw [if_pos he]; exact ih
  | case3 h t he hp _ ih => simp only [prune]; rw [if_neg he, if_pos hp]; exact ih
  | case4 h t he hp ihh iht =>
    simp only [prune]; rw [if_neg he, if_neg hp]
    exact ⟨fun e => hp ((isEmpty_iff _).2 e), ihh, iht⟩
  | case5 k h t he ih => simp only [prune]; rw [if_pos he]; exact ih
  | case6 k h t he hp _ ih => simp only [prune]; rw [if_neg he, if_pos hp]; exact ih
  | case7 k h t he hp ihh iht =>
    simp only [prune]; rw [if_neg he, if_neg hp]
    exact ⟨fun e => hp ((isEmpty_iff _).2 e), ihh, iht⟩
  | case8 h t he ih => simp only [prune]; rw [if_pos he]; exact ih
  | case9 h t he hp _ ih => simp only [prune]; rw [if_neg he, if_pos hp]; exact ih
  | case10 h t he hp ihh iht =>
    simp only [prune]; rw [if_neg he, if_neg hp]
    simp only [sinsert]
    split
    · exact iht
    · exact ⟨fun e => hp ((isEmpty_iff _).2 e), ihh, iht⟩
  | case11 v h1 h2 h3 h4 =>
    cases v with
    | coll k i => exact absurd rfl (h1 k i)
    | cons h t => exact absurd rfl (h2 h t)
    | kcons k h t => exact absurd rfl (h3 k h t)
    | scons h t => exact absurd rfl (h4 h t)
    | none => trivial
    | str s => trivial
    | other a => trivial
    | nil => trivial

/-- Set chains without repetition, everywhere. -/
def SetsOk : Val κ α → Prop
  | .coll _ items => SetsOk items
  | .cons h t => SetsOk h ∧ SetsOk t
  | .kcons _ h t => SetsOk h ∧ SetsOk t
  | .scons h t => smem h t = false ∧ SetsOk h ∧ SetsOk t
  | _ => True

theorem setsOk_prune (v : Val κ α) : SetsOk (prune v) := by
  induction v using prune.induct with
  | case1 k items ih => simp only [prune, SetsOk]; exact ih
  | case2 h t he ih => simp only [prune]; rw [if_pos he]; exact ih
  | case3 h t he hp _ ih => simp only [prune]; rw [if_neg he, if_pos hp]; exact ih
  | case4 h t he hp ihh iht => simp only [prune]; rw [if_neg he, if_neg hp]; exact ⟨ihh, iht⟩
  | case5 k h t he ih => simp only [prune]; rw [if_pos he]; exact ih
  | case6 k h t he hp _ ih => simp only [prune]; rw [if_neg he, if_pos hp]; exact ih
  | case7 k h t he hp ihh iht => simp only [prune]; rw [if_neg he, if_neg hp]; exact ⟨ihh, iht⟩
  | case8 h t he ih => simp only [prune]; rw [if_pos he]; exact ih
  | case9 h t he hp _ ih => simp only [prune]; rw [if_neg he, if_pos hp]; exact ih
  | case10 h t he hp ihh iht =>
    simp only [prune]; rw [if_neg he, if_neg hp]
    simp only [sinsert]
    split
    · exact iht
    · rename_i hm; exact ⟨Bool.eq_false_iff.2 hm, ihh, iht⟩
  | case11 v h1 h2 h3 h4 =>
    cases v with
    | coll k i => exact absurd rfl (h1 k i)
    | cons h t => exact absurd rfl (h2 h t)
    | kcons k h t => exact absurd rfl (h3 k h t)
    | scons h t => exact absurd rfl (h4 h t)
    | none => trivial
    | str s => trivial
    | other a => trivial
    | nil => trivial

theorem prune_fixed : ∀ (v : Val κ α), NoEmptyInside v → SetsOk v → prune v = v
  | .none, _, _ => rfl
  | .str _, _, _ => rfl
  | .other _, _, _ => rfl
  | .nil, _, _ => rfl
  | .coll k items, h, hs => by simp only [prune]; rw [prune_fixed items h hs]
  | .cons a t, h, hs => by
    have h1 := prune_fixed a h.2.1 hs.1
    have h2 := prune_fixed t h.2.2 hs.2
    have he : ¬ isEmpty a = true := fun e => h.1 ((isEmpty_iff a).1 e)
    simp only [prune, h1, h2]; rw [if_neg he, if_neg he]
  | .kcons k a t, h, hs => by
    have h1 := prune_fixed a h.2.1 hs.1
    have h2 := prune_fixed t h.2.2 hs.2
    have he : ¬ isEmpty a = true := fun e => h.1 ((isEmpty_iff a).1 e)
    simp only [prune, h1, h2]; rw [if_neg he, if_neg he]
  | .scons a t, h, hs => by
    have h1 := prune_fixed a h.2.1 hs.2.1
    have h2 := prune_fixed t h.2.2 hs.2.2
    have he : ¬ isEmpty a = true := fun e => h.1 ((isEmpty_iff a).1 e)
    simp only [prune, h1, h2, sinsert]; rw [if_neg he, if_neg he, if_neg (by rw [hs.1]; exact Bool.false_ne_true)]

theorem leaves_prune_noSet : ∀ (v : Val κ α) (p : List (Step κ)), NoSet v → leaves p (prune v) = leaves p v
  | .none, p, _ => rfl
  | .str _, p, _ => rfl
  | .other _, p, _ => rfl
  | .nil, p, _ => rfl
  | .scons _ _, p, h => absurd h (fun h => h)
  | .coll k items, p, h => by simp only [prune, leaves]; exact leaves_prune_noSet items _ h
  | .cons a t, p, h => by
    have h1 := leaves_prune_noSet a p h.1
    have h2 := leaves_prune_noSet t p h.2
    simp only [prune]
    split
    · rename_i he; simp only [leaves, leaves_empty he, List.nil_append, h2]
    · split
      · rename_i he; rw [leaves_empty he] at h1; simp only [leaves, ← h1, List.nil_append, h2]
      · simp only [leaves, h1, h2]
  | .kcons k a t, p, h => by
    have h1 := leaves_prune_noSet a (p ++ [.key k]) h.1
    have h2 := leaves_prune_noSet t p h.2
    simp only [prune]
    split
    · rename_i he; simp only [leaves, leaves_empty he, List.nil_append, h2]
    · split
      · rename_i he; rw [leaves_empty he] at h1; simp only [leaves, ← h1, List.nil_append, h2]
      · simp only [leaves, h1, h2]

theorem mem_leaves_smem (p : List (Step κ)) {x : Val κ α} : ∀ {t : Val κ α}, smem x t = true → ∀ l ∈ leaves p x, l ∈ leaves p t
  | .scons h t, hm, l, hl => by
    simp only [smem, Bool.or_eq_true] at hm
    simp only [leaves, List.mem_append]
    rcases hm with hm | hm
    · rw [of_decide_eq_true hm]; exact Or.inl hl
    · exact Or.inr (mem_leaves_smem p hm l hl)
  | .none, hm, _, _ => by cases hm
  | .str _, hm, _, _ => by cases hm
  | .other _, hm, _, _ => by cases hm
  | .coll _ _, hm, _, _ => by cases hm
  | .nil, hm, _, _ => by cases hm
  | .cons _ _, hm, _, _ => by cases hm
  | .kcons _ _ _, hm, _, _ => by cases hm

theorem mem_leaves_sinsert (p : List (Step κ)) (x t : Val κ α) (l : List (Step κ) × Leaf α) :
    l ∈ leaves p (sinsert x t) ↔ l ∈ leaves p x ∨ l ∈ leaves p t := by
  simp only [sinsert]
  split
  · rename_i hm
    exact ⟨Or.inr, fun h => h.elim (mem_leaves_smem p hm l) id⟩
  · simp only [leaves, List.mem_append]

theorem mem_leaves_prune : ∀ (v : Val κ α) (p : List (Step κ)) (l : List (Step κ) × Leaf α), l ∈ leaves p (prune v) ↔ l ∈ leaves p v
  | .none, p, _ => Iff.rfl
  | .str _, p, _ => Iff.rfl
  | .other _, p, _ => Iff.rfl
  | .nil, p, _ => Iff.rfl
  | .coll k items, p, l => by simp only [prune, leaves]; exact mem_leaves_prune items _ l
  | .cons a t, p, l => by
    have h1 := mem_leaves_prune a p l
    have h2 := mem_leaves_prune t p l
    simp only [prune]
    split
    · rename_i he; simp only [leaves, leaves_empty he, List.nil_append, h2]
    · split
      · rename_i he; rw [leaves_empty he] at h1; simp only [leaves, List.mem_append, ← h1, h2, List.not_mem_nil, false_or]
      · simp only [leaves, List.mem_append, h1, h2]
  | .kcons k a t, p, l => by
    have h1 := mem_leaves_prune a (p ++ [.key k]) l
    have h2 := mem_leaves_prune t p l
    simp only [prune]
    split
    · rename_i he; simp only [leaves, leaves_empty he, List.nil_append, h2]
    · split
      · rename_i he; rw [leaves_empty he] at h1; simp only [leaves, List.mem_append, ← h1, h2, List.not_mem_nil, false_or]
      · simp only [leaves, List.mem_append, h1, h2]
  | .scons a t, p, l => by
    have h1 := mem_leaves_prune a p l
    have h2 := mem_leaves_prune t p l
    simp only [prune]
    split
    · rename_i he; simp only [leaves, leaves_empty he, List.nil_append, h2]
    · split
      · rename_i he; rw [leaves_empty he] at h1; simp only [leaves, List.mem_append, ← h1, h2, List.not_mem_nil, false_or]
      · rw [mem_leaves_sinsert, h1, h2]; simp only [leaves, List.mem_append]

/-! ### The theorems -/

/-- After pruning, nothing inside is empty, at any depth. -/
theorem C73_complete (v : Val κ α) : NoEmptyInside (prune v) := noEmpty_prune v

/-- Pruning twice equals pruning once. -/
theorem C73_idempotent (v : Val κ α) : prune (prune v) = prune v := prune_fixed _ (noEmpty_prune v) (setsOk_prune v)

/-- Every non-empty value (0 and False included) keeps its place, in order; nothing is added. -/
theorem C73_keeps (v : Val κ α) (h : NoSet v) : leaves [] (prune v) = leaves [] v := leaves_prune_noSet v [] h

/-- With sets (where items may become equal and then merge): the same non-empty values at the same paths. -/
theorem C73_keeps_sets (v : Val κ α) (l : List (Step κ) × Leaf α) : l ∈ leaves [] (prune v) ↔ l ∈ leaves [] v := mem_leaves_prune v [] l

/-- A value with nothing empty inside is left as it is. -/
theorem C73_unchanged (v : Val κ α) (h : NoEmptyInside v) (hs : SetsOk v) : prune v = v := prune_fixed v h hs

def demo : Val String Int :=
  .coll .dict (.kcons "a" (.coll .list (.cons (.str [' ']) (.cons (.coll .dict (.kcons "x" .none .nil)) .nil)))
    (.kcons "b" (.other 0) (.kcons "c" (.coll .tuple (.cons (.str ['y']) (.cons .none .nil))) .nil)))

example : prune demo = .coll .dict (.kcons "b" (.other 0) (.kcons "c" (.coll .tuple (.cons (.str ['y']) .nil)) .nil)) := by decide
example : leaves [] demo = [([.into .dict, .key "b"], .other 0), ([.into .dict, .key "c", .into .tuple], .str ['y'])] := by decide
example : prune (.coll .set (.scons (.coll .tuple (.cons (.other 1) (.cons .none .nil))) (.scons (.coll .tuple (.cons (.other 1) .nil)) .nil)) : Val String Int)
    = .coll .set (.scons (.coll .tuple (.cons (.other 1) .nil)) .nil) := by decide

end Verif.Prune
