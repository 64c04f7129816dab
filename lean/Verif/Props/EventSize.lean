import Verif.Props.Event
import Verif.Lemmas.GraphBfs

/-!
# C265: the size of a serialised error
-/

set_option linter.unusedSectionVars false
set_option linter.unusedSimpArgs false
set_option linter.unusedVariables false

namespace Verif.Event

/-- Number of entries (dictionaries) of a serialised error. -/
def Ser.size : Ser → Nat
  | .group _ _ ms => 1 + (ms.map Ser.size).sum
  | _ => 1

variable {ε : Type} [DecidableEq ε]

/-- The members that are serialised one by one. -/
def membersOf (heap : ε → ExcObj ε) (e : ε) : List ε :=
  match (heap e).lion, (heap e).group with
  | none, some ms => ms
  | _, _ => []

/-- The objects met going down at most `k` levels, once for every way to get there. -/
def walk (heap : ε → ExcObj ε) : Nat → List ε → List ε
  | 0, xs => xs
  | k + 1, xs => xs ++ walk heap k (xs.flatMap (membersOf heap))

theorem walk_append (heap : ε → ExcObj ε) : ∀ (k : Nat) (xs ys : List ε),
    (walk heap k (xs ++ ys)).length = (walk heap k xs).length + (walk heap k ys).length
  | 0, xs, ys => by simp [walk]
  | k + 1, xs, ys => by
    simp only [walk, List.flatMap_append, List.length_append, walk_append heap k]
    omega

theorem walk_flat (heap : ε → ExcObj ε) (k : Nat) : ∀ xs : List ε, (walk heap k xs).length = (xs.map (fun x => (walk heap k [x]).length)).sum
  | [] => by
    have h : ∀ k, walk heap k ([] : List ε) = [] := by
      intro k
      induction k with
      | zero => rfl
      | succ k ih => simp [walk, ih]
    simp [h]
  | x :: xs => by
    have := walk_append heap k [x] xs
    simp only [List.singleton_append] at this
    rw [this, walk_flat heap k xs]
    simp

theorem sum_map_le {α : Type} (f g : α → Nat) : ∀ l : List α, (∀ x ∈ l, f x ≤ g x) → (l.map f).sum ≤ (l.map g).sum
  | [], _ => by simp
  | x :: l, h => by
    have h1 := h x (by simp)
    have h2 := sum_map_le f g l (fun y hy => h y (by simp [hy]))
    simp only [List.map_cons, List.sum_cons]
    omega

theorem walk_pos (heap : ε → ExcObj ε) (k : Nat) (e : ε) : 1 ≤ (walk heap k [e]).length := by
  cases k with
  | zero => simp [walk]
  | succ k => simp [walk]

theorem size_member (heap : ε → ExcObj ε) : ∀ (k : Nat) (seen : List ε) (m : ε),
    (serMember heap (serGroup heap k seen) m).size ≤ (walk heap k [m]).length
  | 0, seen, m => by
    simp only [serMember]
    split <;> simp [Ser.size, serGroup, walk]
  | k + 1, seen, m => by
    simp only [serMember]
    split
    · simp only [Ser.size]
      exact walk_pos heap _ m
    · next ms h1 h2 =>
      have hm : membersOf heap m = ms := by simp [membersOf, h1, h2]
      simp only [serGroup]
      split
      · simp only [Ser.size]
        exact walk_pos heap _ m
      · simp only [Ser.size, List.map_map]
        have h3 : (walk heap (k + 1) [m]).length = 1 + (walk heap k ms).length := by
          simp [walk, hm]
          omega
        rw [h3, walk_flat heap k ms]
        have := sum_map_le (Ser.size ∘ serMember heap (serGroup heap k (m :: seen))) (fun x => (walk heap k [x]).length) ms
          (fun x _ => size_member heap k (m :: seen) x)
        omega
    · simp only [Ser.size]
      exact walk_pos heap _ m

/-- The `j`-th level. -/
def level (heap : ε → ExcObj ε) : Nat → List ε → List ε
  | 0, xs => xs
  | j + 1, xs => level heap j (xs.flatMap (membersOf heap))

theorem level_succ (heap : ε → ExcObj ε) : ∀ (j : Nat) (xs : List ε), level heap (j + 1) xs = (level heap j xs).flatMap (membersOf heap)
  | 0, xs => rfl
  | j + 1, xs => by
    rw [level, level_succ heap j]
    rfl

theorem mem_walk (heap : ε → ExcObj ε) : ∀ (k : Nat) (xs : List ε) (x : ε), x ∈ walk heap k xs → ∃ j, x ∈ level heap j xs
  | 0, xs, x, h => ⟨0, h⟩
  | k + 1, xs, x, h => by
    simp only [walk, List.mem_append] at h
    rcases h with h | h
    · exact ⟨0, h⟩
    · obtain ⟨j, hj⟩ := mem_walk heap k _ x h
      exact ⟨j + 1, hj⟩

theorem flatMap_nodup {heap : ε → ExcObj ε} (hinj : ∀ a b m, m ∈ membersOf heap a → m ∈ membersOf heap b → a = b)
    (hnd : ∀ a, (membersOf heap a).Nodup) : ∀ xs : List ε, xs.Nodup → (xs.flatMap (membersOf heap)).Nodup
  | [], _ => by simp
  | x :: xs, h => by
    have h' := List.nodup_cons.1 h
    rw [List.flatMap_cons, List.nodup_append]
    refine ⟨hnd x, flatMap_nodup hinj hnd xs h'.2, ?_⟩
    intro a ha b hb hab
    subst hab
    obtain ⟨y, hy, hm⟩ := List.mem_flatMap.1 hb
    exact h'.1 (hinj x y a ha hm ▸ hy)

theorem walk_nodup {heap : ε → ExcObj ε} (hinj : ∀ a b m, m ∈ membersOf heap a → m ∈ membersOf heap b → a = b)
    (hnd : ∀ a, (membersOf heap a).Nodup) : ∀ (k : Nat) (xs : List ε), xs.Nodup → (∀ j, ∀ x ∈ xs, x ∉ level heap (j + 1) xs) →
      (walk heap k xs).Nodup
  | 0, xs, h, _ => h
  | k + 1, xs, h, hd => by
    have hd' : ∀ j, ∀ y ∈ xs.flatMap (membersOf heap), y ∉ level heap (j + 1) (xs.flatMap (membersOf heap)) := by
      intro j y hy hy'
      obtain ⟨a, ha, hm⟩ := List.mem_flatMap.1 hy
      rw [level_succ] at hy'
      obtain ⟨b, hb, hm'⟩ := List.mem_flatMap.1 hy'
      have := hinj a b y hm hm'
      subst this
      exact hd j a ha hb
    rw [walk, List.nodup_append]
    refine ⟨h, walk_nodup hinj hnd k _ (flatMap_nodup hinj hnd xs h) hd', ?_⟩
    intro a ha b hb hab
    subst hab
    obtain ⟨j, hj⟩ := mem_walk heap k _ a hb
    exact hd j a ha hj

theorem level_sub {heap : ε → ExcObj ε} {objs : List ε} (hc : ∀ a ∈ objs, ∀ m ∈ membersOf heap a, m ∈ objs) :
    ∀ (j : Nat) (xs : List ε), (∀ x ∈ xs, x ∈ objs) → ∀ x ∈ level heap j xs, x ∈ objs
  | 0, xs, h, x, hx => h x hx
  | j + 1, xs, h, x, hx => level_sub hc j _ (fun y hy => by
      obtain ⟨a, ha, hm⟩ := List.mem_flatMap.1 hy
      exact hc a (h a ha) y hm) x hx

/-- C265, where it holds: if no exception object is listed by two groups or twice by one, and the error itself by none, the serialised error has
at most one entry per exception object. -/
theorem C265_tree_partial (heap : ε → ExcObj ε) (e : ε) (objs : List ε) (he : e ∈ objs)
    (hc : ∀ a ∈ objs, ∀ ms, (heap a).group = some ms → ∀ m ∈ ms, m ∈ objs)
    (hinj : ∀ a b ms ms' m, (heap a).group = some ms → (heap b).group = some ms' → m ∈ ms → m ∈ ms' → a = b)
    (hnd : ∀ a ms, (heap a).group = some ms → ms.Nodup) (hroot : ∀ a ms, (heap a).group = some ms → e ∉ ms)
    (s : Ser) (hs : serError heap (.raised e) = some s) : s.size ≤ objs.length := by
  have hmo : ∀ a m, m ∈ membersOf heap a → ∃ ms, (heap a).group = some ms ∧ m ∈ ms := by
    intro a m hm
    simp only [membersOf] at hm
    split at hm
    · next ms _ h2 => exact ⟨ms, h2, hm⟩
    · simp at hm
  simp only [serError, Option.some.injEq] at hs
  subst hs
  refine Nat.le_trans (size_member heap _ [] e) ?_
  refine List.Nodup.length_le_of_subset (walk_nodup ?_ ?_ _ _ (by simp) ?_) ?_
  · intro a b m h1 h2
    obtain ⟨ms, g1, m1⟩ := hmo a m h1
    obtain ⟨ms', g2, m2⟩ := hmo b m h2
    exact hinj a b ms ms' m g1 g2 m1 m2
  · intro a
    simp only [membersOf]
    split
    · next ms _ h2 => exact hnd a ms h2
    · simp
  · intro j x hx hl
    simp only [List.mem_singleton] at hx
    subst hx
    rw [level_succ] at hl
    obtain ⟨b, _, hm⟩ := List.mem_flatMap.1 hl
    obtain ⟨ms, g, hm⟩ := hmo b x hm
    exact hroot b ms g hm
  · intro x hx
    obtain ⟨j, hj⟩ := mem_walk heap _ _ x hx
    refine level_sub (fun a ha m hm => ?_) j [e] (by simpa using he) x hj
    obtain ⟨ms, g, hm⟩ := hmo a m hm
    exact hc a ha ms g m hm

/-- A chain of groups, each of which lists the next one twice: group `i` lists `i - 1`; object 0 is a plain exception. -/
def ladder : Nat → ExcObj Nat
  | 0 => { cls := "ValueError", text := "x" }
  | n + 1 => { cls := "ExceptionGroup", text := "g", group := some [n, n] }

theorem ladder_size (n : Nat) : ∀ (k : Nat) (seen : List Nat), n ≤ k → (∀ x ∈ seen, n < x) →
    (serMember ladder (serGroup ladder k seen) n).size + 1 = 2 ^ (n + 1) := by
  induction n with
  | zero =>
    intro k seen _ _
    have h1 : serMember ladder (serGroup ladder k seen) 0 = .plain "ValueError" "x" := rfl
    rw [h1]
    simp [Ser.size]
  | succ n ih =>
    intro k seen hk hs
    obtain ⟨k', rfl⟩ : ∃ k', k = k' + 1 := ⟨k - 1, by omega⟩
    have h1 : serMember ladder (serGroup ladder (k' + 1) seen) (n + 1) = serGroup ladder (k' + 1) seen (n + 1) [n, n] := rfl
    have h2 : n + 1 ∉ seen := fun hm => by
      have := hs _ hm
      omega
    rw [h1, serGroup, if_neg h2]
    have := ih k' ((n + 1) :: seen) (by omega) (fun x hx => by
      rcases List.mem_cons.1 hx with rfl | hx
      · omega
      · have := hs x hx
        omega)
    simp only [Ser.size, List.map_cons, List.map_nil, List.sum_cons, List.sum_nil]
    rw [Nat.pow_succ]
    omega

/-- C265 is false of the code: for every `n` up to 101 there is an error of `n + 1` exception objects whose serialisation has `2 ^ (n + 1) - 1`
entries. -/
theorem C265_violation (n : Nat) (hn : n ≤ 101) :
    (∀ a, a ≤ n → ∀ ms, (ladder a).group = some ms → ∀ m ∈ ms, m ≤ n) ∧
    ∃ s, serError ladder (.raised n) = some s ∧ s.size + 1 = 2 ^ (n + 1) := by
  constructor
  · intro a ha ms hg m hm
    cases a with
    | zero => cases hg
    | succ a =>
      simp only [ladder, Option.some.injEq] at hg
      subst hg
      simp at hm
      omega
  · exact ⟨_, rfl, ladder_size n _ [] hn (by simp)⟩

example : ∃ s, serError ladder (.raised 3) = some s ∧ s.size = 15 := by
  obtain ⟨s, h1, h2⟩ := (C265_violation 3 (by omega)).2
  exact ⟨s, h1, by omega⟩

/-- A tree of two groups and three plain exceptions. -/
def smallTree : Nat → ExcObj Nat
  | 0 => { cls := "ExceptionGroup", text := "g", group := some [1, 2] }
  | 1 => { cls := "ExceptionGroup", text := "h", group := some [3, 4] }
  | _ => { cls := "ValueError", text := "x" }

theorem smallTree_group (a : Nat) (ms : List Nat) (h : (smallTree a).group = some ms) : (a = 0 ∧ ms = [1, 2]) ∨ (a = 1 ∧ ms = [3, 4]) := by
  match a, h with
  | 0, h => exact .inl ⟨rfl, by simpa [smallTree] using h.symm⟩
  | 1, h => exact .inr ⟨rfl, by simpa [smallTree] using h.symm⟩
  | n + 2, h => simp [smallTree] at h

/-- Non-vacuity of `C265_tree_partial`: two nested groups with three leaves; the bound is reached. -/
example : ∃ s, serError smallTree (.raised 0) = some s ∧ s.size ≤ [0, 1, 2, 3, 4].length := by
  refine ⟨_, rfl, C265_tree_partial smallTree 0 [0, 1, 2, 3, 4] (by simp) ?_ ?_ ?_ ?_ _ rfl⟩
  · intro a _ ms h m hm
    rcases smallTree_group a ms h with ⟨rfl, rfl⟩ | ⟨rfl, rfl⟩ <;> simp at hm <;> simp <;> omega
  · intro a b ms ms' m h h' hm hm'
    rcases smallTree_group a ms h with ⟨rfl, rfl⟩ | ⟨rfl, rfl⟩ <;>
      rcases smallTree_group b ms' h' with ⟨rfl, rfl⟩ | ⟨rfl, rfl⟩ <;> simp at hm hm' <;> omega
  · intro a ms h
    rcases smallTree_group a ms h with ⟨rfl, rfl⟩ | ⟨rfl, rfl⟩ <;> simp
  · intro a ms h
    rcases smallTree_group a ms h with ⟨rfl, rfl⟩ | ⟨rfl, rfl⟩ <;> simp

theorem smallTree_size (k : Nat) : (serMember smallTree (serGroup smallTree (k + 3) []) 0).size = 5 := by
  simp [serMember, serGroup, smallTree, Ser.size]

example : ∃ s, serError smallTree (.raised 0) = some s ∧ s.size = 5 := ⟨_, rfl, smallTree_size 98⟩

end Verif.Event
