import Verif.Model.Implements

/-!
# C79: `@implements`
-/

namespace Verif.Implements

/-- A name is defined in the class's own body: assigned or annotated there. Inheriting it does not count. -/
def Defines (c : Cls) (n : List Char) : Prop := n ∈ c.body ∨ n ∈ c.annotations

/-- A protocol all of whose members are methods or properties with public names. -/
def Public (P : Protocol) : Prop := ∀ m ∈ P, isPrivate m.1 = false ∧ (m.2 = .callable ∨ m.2 = .property)

theorem inBody_iff (c : Cls) (n : List Char) : inBody c n = true ↔ Defines c n := by
  unfold inBody Defines; simp

theorem members_public {P : Protocol} (h : Public P) : members P = P.map Prod.fst := by
  unfold members
  rw [List.filter_eq_self.2]
  intro m hm
  obtain ⟨h1, h2⟩ := h m hm
  rw [h1]
  rcases h2 with h2 | h2 <;> rw [h2] <;> rfl

/-- **C79** (partial). For protocols made of public methods and properties, decorating succeeds exactly when the class's own body defines every member of every protocol — inherited definitions do not count — and otherwise raises `TypeError`; on success the class is returned with exactly these protocols. Missing: members with private or special names and bare annotations, see the violations. -/
theorem C79_public_partial (Ps : List Protocol) (hP : ∀ P ∈ Ps, Public P) (c : Cls) :
    (implements Ps c = .ok (c, Ps) ↔ ∀ P ∈ Ps, ∀ m ∈ P, Defines c m.1) ∧
    (implements Ps c = .error .typeError ↔ ∃ P ∈ Ps, ∃ m ∈ P, ¬ Defines c m.1) := by
  have key : Ps.all (fun P => (members P).all (inBody c)) = true ↔ ∀ P ∈ Ps, ∀ m ∈ P, Defines c m.1 := by
    rw [List.all_eq_true]
    constructor
    · intro h P hPm m hm
      have := h P hPm
      rw [members_public (hP P hPm), List.all_eq_true] at this
      exact (inBody_iff _ _).1 (this m.1 (List.mem_map.2 ⟨m, hm, rfl⟩))
    · intro h P hPm
      rw [members_public (hP P hPm), List.all_eq_true]
      intro n hn
      obtain ⟨m, hm, rfl⟩ := List.mem_map.1 hn
      exact (inBody_iff _ _).2 (h P hPm m hm)
  unfold implements
  constructor
  · constructor
    · intro h
      split at h
      · next ht => exact key.1 ht
      · cases h
    · intro h; rw [if_pos (key.2 h)]
  · constructor
    · intro h
      split at h
      · cases h
      · next ht =>
        apply Classical.byContradiction
        intro hn
        apply ht
        apply key.2
        intro P hPm m hm
        apply Classical.byContradiction
        intro hd
        exact hn ⟨P, hPm, m, hm, hd⟩
    · rintro ⟨P, hPm, m, hm, hd⟩
      rw [if_neg (fun ht => hd (key.1 ht P hPm m hm))]

/-- A name begins with an underscore. -/
def Underscore (n : List Char) : Prop := n.head? = some '_'

theorem isPrivate_iff (n : List Char) : isPrivate n = true ↔ Underscore n := by
  unfold Underscore
  cases n with
  | nil => exact ⟨fun h => (by cases h), fun h => (by cases h)⟩
  | cons c n =>
    unfold isPrivate
    split
    · next h => cases h; exact ⟨fun _ => rfl, fun _ => rfl⟩
    · next h => exact ⟨fun h => (by cases h), fun e => (by cases e; exact absurd rfl (h n))⟩

theorem mem_members (P : Protocol) (n : List Char) :
    n ∈ members P ↔ ∃ k, (n, k) ∈ P ∧ ¬ Underscore n ∧ (k = .callable ∨ k = .property) := by
  unfold members
  rw [List.mem_map]
  constructor
  · rintro ⟨m, hm, rfl⟩
    rw [List.mem_filter, Bool.and_eq_true, Bool.not_eq_true'] at hm
    refine ⟨m.2, hm.1, fun hu => ?_, ?_⟩
    · rw [(isPrivate_iff _).2 hu] at hm; cases hm.2.1
    · have h2 := hm.2.2
      cases hk : m.2 <;> rw [hk] at h2 <;> first | exact Or.inl rfl | exact Or.inr rfl | cases h2
  · rintro ⟨k, hm, hu, hk⟩
    refine ⟨(n, k), List.mem_filter.2 ⟨hm, ?_⟩, rfl⟩
    rw [Bool.and_eq_true, Bool.not_eq_true']
    refine ⟨?_, by rcases hk with rfl | rfl <;> rfl⟩
    cases h : isPrivate n with
    | false => rfl
    | true => exact absurd ((isPrivate_iff n).1 h) hu

/-- **C79** (partial, exact). For arbitrary protocols, decorating succeeds exactly when the class's own body defines every method and property of
every protocol whose name does not begin with an underscore; otherwise it raises `TypeError`. -/
theorem C79_exact_partial (Ps : List Protocol) (c : Cls) :
    (implements Ps c = .ok (c, Ps) ↔
      ∀ P ∈ Ps, ∀ n k, (n, k) ∈ P → ¬ Underscore n → (k = .callable ∨ k = .property) → n ∈ c.body ∨ n ∈ c.annotations) ∧
    (implements Ps c = .ok (c, Ps) ∨ implements Ps c = .error .typeError) := by
  have key : Ps.all (fun P => (members P).all (inBody c)) = true ↔
      ∀ P ∈ Ps, ∀ n k, (n, k) ∈ P → ¬ Underscore n → (k = .callable ∨ k = .property) → n ∈ c.body ∨ n ∈ c.annotations := by
    rw [List.all_eq_true]
    constructor
    · intro h P hP n k hm hu hk
      have := h P hP
      rw [List.all_eq_true] at this
      exact (inBody_iff c n).1 (this n ((mem_members P n).2 ⟨k, hm, hu, hk⟩))
    · intro h P hP
      rw [List.all_eq_true]
      intro n hn
      obtain ⟨k, hm, hu, hk⟩ := (mem_members P n).1 hn
      exact (inBody_iff c n).2 (h P hP n k hm hu hk)
  unfold implements
  by_cases h : Ps.all (fun P => (members P).all (inBody c)) = true
  · rw [if_pos h]
    exact ⟨⟨fun _ => key.1 h, fun _ => rfl⟩, Or.inl rfl⟩
  · rw [if_neg h]
    exact ⟨⟨fun e => (by cases e), fun e => absurd (key.2 e) h⟩, Or.inr rfl⟩

/-- **C79** (every protocol). Whatever the protocols, a class lacking one of their public methods or properties in its own body is rejected. -/
theorem C79_rejects (Ps : List Protocol) (c : Cls) (P : Protocol) (hP : P ∈ Ps) (n : List Char) (k : Member) (hm : (n, k) ∈ P) (hn : isPrivate n = false)
    (hk : k = .callable ∨ k = .property) (hd : ¬ Defines c n) : implements Ps c = .error .typeError := by
  unfold implements
  rw [if_neg]
  intro h
  rw [List.all_eq_true] at h
  have := h P hP
  rw [List.all_eq_true] at this
  apply hd
  apply (inBody_iff _ _).1
  apply this
  unfold members
  apply List.mem_map.2
  refine ⟨(n, k), List.mem_filter.2 ⟨hm, ?_⟩, rfl⟩
  rw [hn]
  rcases hk with rfl | rfl <;> rfl

/-- **C79** (violation). A protocol consisting of a special method (such as `Containable` or `Hashable`) is satisfied by an empty class; so is one consisting of an annotated attribute. -/
theorem C79_special_violation : ∃ P Q : Protocol, ∃ c : Cls, (∃ m ∈ P, ¬ Defines c m.1) ∧ implements [P] c = .ok (c, [P]) ∧
    (∃ m ∈ Q, ¬ Defines c m.1) ∧ implements [Q] c = .ok (c, [Q]) :=
  ⟨[("__contains__".toList, .callable)], [("name".toList, .annotation)], ⟨[], [], []⟩,
    ⟨_, List.mem_cons_self, by simp [Defines]⟩, by decide, ⟨_, List.mem_cons_self, by simp [Defines]⟩, by decide⟩

/-- Inheriting a method is not enough; annotating or defining it is. -/
example : implements [[(['t', 'o'], .callable)]] ⟨[], [], [['t', 'o']]⟩ = .error .typeError ∧
    implements [[(['t', 'o'], .callable)], [(['i', 'd'], .property)]] ⟨[['t', 'o']], [['i', 'd']], []⟩ =
      .ok (⟨[['t', 'o']], [['i', 'd']], []⟩, [[(['t', 'o'], .callable)], [(['i', 'd'], .property)]]) := ⟨by decide, by decide⟩

example : Public [(['t', 'o'], .callable), (['i', 'd'], .property)] := by
  intro m hm
  simp only [List.mem_cons, List.not_mem_nil, or_false] at hm
  rcases hm with rfl | rfl <;> decide

end Verif.Implements
