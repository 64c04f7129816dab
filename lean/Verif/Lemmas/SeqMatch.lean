import Verif.Model.SeqMatch

/-!
# Lemmas about `Verif/Model/SeqMatch.lean`
-/

set_option linter.unusedSectionVars false
set_option linter.unusedSimpArgs false
set_option linter.unusedVariables false

namespace Verif.SeqMatch

variable {α : Type} [DecidableEq α]

/-- Length of the common beginning of two lists up to the first popular character. -/
def run (pop : α → Bool) : List α → List α → Nat
  | x :: xs, y :: ys => if x = y ∧ pop x = false then run pop xs ys + 1 else 0
  | _, _ => 0

theorem run_nil_left (pop : α → Bool) (l : List α) : run pop [] l = 0 := by cases l <;> rfl

theorem run_comm (pop : α → Bool) (l m : List α) : run pop l m = run pop m l := by
  induction l generalizing m with
  | nil => cases m <;> rfl
  | cons x xs ih =>
    cases m with
    | nil => rfl
    | cons y ys =>
      simp only [run]
      by_cases h : x = y
      · subst h; rw [ih]
      · rw [if_neg (by simp [h]), if_neg (by intro c; exact h c.1.symm)]

theorem run_self_le (pop : α → Bool) (l m : List α) : run pop l m ≤ run pop l l := by
  induction l generalizing m with
  | nil => simp [run_nil_left]
  | cons x xs ih =>
    cases m with
    | nil => simp [run]
    | cons y ys =>
      simp only [run]
      by_cases h : pop x = false
      · have e : (if True ∧ pop x = false then run pop xs xs + 1 else 0) = run pop xs xs + 1 := if_pos ⟨trivial, h⟩
        rw [e]
        split
        · have := ih ys; omega
        · omega
      · rw [if_neg (by simp [h])]; simp

theorem run_split (pop : α → Bool) (l m : List α) : ∃ p l' m', l = p ++ l' ∧ m = p ++ m' ∧ p.length = run pop l m := by
  induction l generalizing m with
  | nil => exact ⟨[], [], m, rfl, rfl, by simp [run_nil_left]⟩
  | cons x xs ih =>
    cases m with
    | nil => exact ⟨[], x :: xs, [], rfl, rfl, rfl⟩
    | cons y ys =>
      simp only [run]
      by_cases h : x = y ∧ pop x = false
      · rw [if_pos h]
        obtain ⟨p, l', m', h1, h2, h3⟩ := ih ys
        exact ⟨x :: p, l', m', by simp [h1], by rw [← h.1]; simp [h2], by simp [h3]⟩
      · rw [if_neg h]; exact ⟨[], x :: xs, y :: ys, rfl, rfl, rfl⟩

theorem le_run (pop : α → Bool) (p l m : List α) (hp : ∀ c ∈ p, pop c = false) : p.length ≤ run pop (p ++ l) (p ++ m) := by
  induction p with
  | nil => simp
  | cons x xs ih =>
    simp only [List.cons_append, run]
    rw [if_pos ⟨trivial, hp x (by simp)⟩]
    have := ih (fun c hc => hp c (by simp [hc]))
    simp; omega

theorem agree_split (l m : List α) : ∃ p l' m', l = p ++ l' ∧ m = p ++ m' ∧ p.length = agree l m := by
  induction l generalizing m with
  | nil => exact ⟨[], [], m, rfl, rfl, by cases m <;> rfl⟩
  | cons x xs ih =>
    cases m with
    | nil => exact ⟨[], x :: xs, [], rfl, rfl, rfl⟩
    | cons y ys =>
      simp only [agree]
      by_cases h : x = y
      · rw [if_pos h]
        obtain ⟨p, l', m', h1, h2, h3⟩ := ih ys
        exact ⟨x :: p, l', m', by simp [h1], by rw [← h]; simp [h2], by simp [h3]⟩
      · rw [if_neg h]; exact ⟨[], x :: xs, y :: ys, rfl, rfl, rfl⟩

theorem agree_self (l : List α) : agree l l = l.length := by
  induction l with
  | nil => rfl
  | cons x xs ih => simp [agree, ih]

/-! ### Rows -/

/-- The row of `run` values of `ra` against all prefixes. -/
def runRow (pop : α → Bool) (ra : List α) : List α → List α → List Nat
  | _, [] => []
  | rb, y :: ys => run pop ra (y :: rb) :: runRow pop ra (y :: rb) ys

theorem rowGo_eq (pop : α → Bool) (x : α) (ra rb ys : List α) :
    rowGo pop x ys (run pop ra rb) (runRow pop ra rb ys) = runRow pop (x :: ra) rb ys := by
  induction ys generalizing rb with
  | nil => rfl
  | cons y ys ih =>
    simp only [rowGo, runRow]
    rw [ih (y :: rb)]
    rfl

theorem runRow_nil (pop : α → Bool) (rb ys : List α) : runRow pop [] rb ys = List.replicate ys.length 0 := by
  induction ys generalizing rb with
  | nil => rfl
  | cons y ys ih => simp [runRow, ih, run_nil_left, List.replicate_succ]

theorem runRow_get (pop : α → Bool) (ra rb ys : List α) (j : Nat) (hj : j < ys.length) :
    (runRow pop ra rb ys)[j]? = some (run pop ra ((ys.take (j + 1)).reverse ++ rb)) := by
  induction ys generalizing rb j with
  | nil => simp at hj
  | cons y ys ih =>
    cases j with
    | zero => simp [runRow]
    | succ j =>
      simp only [List.length_cons] at hj
      simp only [runRow, List.getElem?_cons_succ]
      rw [ih (y :: rb) j (by omega)]
      simp

theorem runRow_length (pop : α → Bool) (ra rb ys : List α) : (runRow pop ra rb ys).length = ys.length := by
  induction ys generalizing rb with
  | nil => rfl
  | cons y ys ih => simp [runRow, ih]

/-! ### The best block -/

/-- The value of cell `(i, j)`: the longest common part without popular characters that ends there. -/
def cell (pop : α → Bool) (a b : List α) (i j : Nat) : Nat := run pop (a.take (i + 1)).reverse (b.take (j + 1)).reverse

/-- Cell `(i, j)` comes before `(I, J)`. -/
def Before (i j I J : Nat) : Prop := i < I ∨ (i = I ∧ j < J)

/-- `m` is the first largest block among the cells before `(I, J)`. -/
def Top (pop : α → Bool) (a b : List α) (I J : Nat) (m : Block) : Prop :=
  (∀ i j, j < b.length → Before i j I J → cell pop a b i j ≤ m.k) ∧
  (m = ⟨0, 0, 0⟩ ∨ ∃ i j, Before i j I J ∧ j < b.length ∧ cell pop a b i j = m.k ∧ 0 < m.k ∧ m.i = i + 1 - m.k ∧ m.j = j + 1 - m.k ∧
    ∀ i' j', j' < b.length → Before i' j' i j → cell pop a b i' j' < m.k)

theorem Top.better {pop : α → Bool} {a b : List α} {I J : Nat} {m : Block} (h : Top pop a b I J m) (hJ : J < b.length) :
    Top pop a b I (J + 1) (better I J (cell pop a b I J) m) := by
  obtain ⟨h1, h2⟩ := h
  unfold SeqMatch.better
  split
  · next hk =>
    refine ⟨?_, Or.inr ⟨I, J, Or.inr ⟨rfl, by omega⟩, hJ, rfl, (show 0 < cell pop a b I J by omega), rfl, rfl, ?_⟩⟩
    · intro i j hj hb
      show cell pop a b i j ≤ cell pop a b I J
      rcases hb with hb | ⟨rfl, hb⟩
      · have := h1 i j hj (Or.inl hb); omega
      · by_cases e : j = J
        · subst e; omega
        · have := h1 i j hj (Or.inr ⟨rfl, by omega⟩); omega
    · intro i j hj hb
      show cell pop a b i j < cell pop a b I J
      have := h1 i j hj hb; omega
  · next hk =>
    refine ⟨?_, ?_⟩
    · intro i j hj hb
      rcases hb with hb | ⟨rfl, hb⟩
      · exact h1 i j hj (Or.inl hb)
      · by_cases e : j = J
        · subst e; omega
        · exact h1 i j hj (Or.inr ⟨rfl, by omega⟩)
    · rcases h2 with h2 | ⟨i, j, hb, hj, hc, hp, e1, e2, hf⟩
      · exact Or.inl h2
      · refine Or.inr ⟨i, j, ?_, hj, hc, hp, e1, e2, hf⟩
        rcases hb with hb | ⟨hb, hb'⟩
        · exact Or.inl hb
        · exact Or.inr ⟨hb, by omega⟩

theorem Top.scan {pop : α → Bool} {a b : List α} {I : Nat} (l : List Nat) (J : Nat) (m : Block) (h : Top pop a b I J m) (hl : J + l.length = b.length)
    (hv : ∀ n v, l[n]? = some v → v = cell pop a b I (J + n)) : Top pop a b I b.length (scanRow I J l m) := by
  induction l generalizing J m with
  | nil => simp at hl; subst hl; exact h
  | cons v l ih =>
    simp only [List.length_cons] at hl
    have e : v = cell pop a b I J := hv 0 v (by simp)
    simp only [scanRow]
    rw [e]
    refine ih (J + 1) _ (h.better (by omega)) (by omega) ?_
    intro n w hw
    have := hv (n + 1) w (by simpa using hw)
    rw [this]; congr 1; omega

theorem Top.next {pop : α → Bool} {a b : List α} {I : Nat} {m : Block} (h : Top pop a b I b.length m) : Top pop a b (I + 1) 0 m := by
  obtain ⟨h1, h2⟩ := h
  refine ⟨?_, ?_⟩
  · intro i j hj hb
    refine h1 i j hj ?_
    rcases hb with hb | ⟨_, hb⟩
    · by_cases e : i = I
      · exact Or.inr ⟨e, hj⟩
      · exact Or.inl (by omega)
    · omega
  · rcases h2 with h2 | ⟨i, j, hb, hj, hc, hp, e1, e2, hf⟩
    · exact Or.inl h2
    · refine Or.inr ⟨i, j, Or.inl ?_, hj, hc, hp, e1, e2, hf⟩
      rcases hb with hb | ⟨hb, _⟩ <;> omega

theorem rows_top (pop : α → Bool) (b : List α) (xs pre : List α) (m : Block) (h : Top pop (pre ++ xs) b pre.length 0 m) :
    Top pop (pre ++ xs) b (pre ++ xs).length 0 (rows pop b xs pre.length (runRow pop pre.reverse [] b) m) := by
  induction xs generalizing pre m with
  | nil => simpa [rows] using h
  | cons x xs ih =>
    have e0 : rowGo pop x b 0 (runRow pop pre.reverse [] b) = runRow pop (x :: pre.reverse) [] b := by
      have := rowGo_eq pop x pre.reverse [] b
      rw [run_comm, run_nil_left] at this
      exact this
    simp only [rows]
    rw [e0]
    have hs : Top pop (pre ++ x :: xs) b pre.length b.length (scanRow pre.length 0 (runRow pop (x :: pre.reverse) [] b) m) := by
      refine Top.scan _ 0 m h (by simp [runRow_length]) ?_
      intro n v hv
      have hn : n < b.length := by
        have := (List.getElem?_eq_some_iff.1 hv).1
        simpa [runRow_length] using this
      rw [runRow_get pop _ _ _ n hn] at hv
      simp only [Option.some.injEq] at hv
      rw [← hv]
      simp only [cell, List.append_nil, Nat.zero_add]
      congr 1
      rw [List.take_append, List.take_of_length_le (by omega)]
      simp
    have hn := hs.next
    have := ih (pre ++ [x]) _ (by simpa using hn)
    simpa using this

theorem core_top (pop : α → Bool) (a b : List α) : Top pop a b a.length 0 (core pop a b) := by
  have h0 : Top pop ([] ++ a) b ([] : List α).length 0 ⟨0, 0, 0⟩ := by
    refine ⟨?_, Or.inl rfl⟩
    intro i j _ hb
    rcases hb with hb | ⟨_, hb⟩ <;> simp at hb
  have := rows_top pop b a [] ⟨0, 0, 0⟩ h0
  simp only [List.reverse_nil, runRow_nil, List.nil_append, List.length_nil] at this
  exact this

/-! ### Blocks -/

/-- `a[i:i+k] == b[j:j+k]`, by splitting both lists. -/
def IsBlock (a b : List α) (m : Block) : Prop :=
  ∃ a1 u a2 b1 b2, a = a1 ++ u ++ a2 ∧ b = b1 ++ u ++ b2 ∧ a1.length = m.i ∧ b1.length = m.j ∧ u.length = m.k

theorem core_block (pop : α → Bool) (a b : List α) : IsBlock a b (core pop a b) := by
  obtain ⟨_, h⟩ := core_top pop a b
  rcases h with h | ⟨i, j, hb, hj, hc, hp, e1, e2, _⟩
  · rw [h]; exact ⟨[], [], a, [], b, rfl, rfl, rfl, rfl, rfl⟩
  · obtain ⟨p, l', m', h1, h2, h3⟩ := run_split pop (a.take (i + 1)).reverse (b.take (j + 1)).reverse
    have hi : i < a.length := by rcases hb with hb | ⟨_, hb⟩ <;> omega
    have g1 : a.take (i + 1) = l'.reverse ++ p.reverse := by
      have := congrArg List.reverse h1; simpa using this
    have g2 : b.take (j + 1) = m'.reverse ++ p.reverse := by
      have := congrArg List.reverse h2; simpa using this
    have n1 := congrArg List.length g1
    have n2 := congrArg List.length g2
    simp at n1 n2
    have hk : p.length = (core pop a b).k := by rw [h3]; exact hc
    refine ⟨l'.reverse, p.reverse, a.drop (i + 1), m'.reverse, b.drop (j + 1), ?_, ?_, ?_, ?_, ?_⟩
    · rw [← g1, List.take_append_drop]
    · rw [← g2, List.take_append_drop]
    · rw [e1]; simp; omega
    · rw [e2]; simp; omega
    · simpa using hk

theorem extendLeft_block (a b : List α) (m : Block) (h : IsBlock a b m) : IsBlock a b (extendLeft a b m) ∧ m.k ≤ (extendLeft a b m).k := by
  obtain ⟨a1, u, a2, b1, b2, h1, h2, e1, e2, e3⟩ := h
  refine ⟨?_, by simp [extendLeft]⟩
  have t1 : a.take m.i = a1 := by rw [h1, ← e1]; simp
  have t2 : b.take m.j = b1 := by rw [h2, ← e2]; simp
  obtain ⟨p, l', m', g1, g2, g3⟩ := agree_split a1.reverse b1.reverse
  have f1 : a1 = l'.reverse ++ p.reverse := by have := congrArg List.reverse g1; simpa using this
  have f2 : b1 = m'.reverse ++ p.reverse := by have := congrArg List.reverse g2; simpa using this
  refine ⟨l'.reverse, p.reverse ++ u, a2, m'.reverse, b2, ?_, ?_, ?_, ?_, ?_⟩
  · rw [h1, f1]; simp
  · rw [h2, f2]; simp
  · simp only [extendLeft]; rw [t1, t2, ← g3, ← e1, f1]; simp
  · simp only [extendLeft]; rw [t1, t2, ← g3, ← e2, f2]; simp
  · simp only [extendLeft]; rw [t1, t2, ← g3, ← e3]; simp; omega

theorem extendRight_block (a b : List α) (m : Block) (h : IsBlock a b m) : IsBlock a b (extendRight a b m) ∧ m.k ≤ (extendRight a b m).k := by
  obtain ⟨a1, u, a2, b1, b2, h1, h2, e1, e2, e3⟩ := h
  refine ⟨?_, by simp [extendRight]⟩
  have t1 : a.drop (m.i + m.k) = a2 := by
    rw [h1, ← e1, ← e3, List.drop_append]; simp
  have t2 : b.drop (m.j + m.k) = b2 := by
    rw [h2, ← e2, ← e3, List.drop_append]; simp
  obtain ⟨p, l', m', g1, g2, g3⟩ := agree_split a2 b2
  refine ⟨a1, u ++ p, l', b1, m', ?_, ?_, e1, e2, ?_⟩
  · rw [h1, g1]; simp
  · rw [h2, g2]; simp
  · simp only [extendRight]; rw [t1, t2, ← g3, ← e3]; simp

theorem longest_block (pop : α → Bool) (a b : List α) : IsBlock a b (longest pop a b) ∧ (core pop a b).k ≤ (longest pop a b).k := by
  have h1 := extendLeft_block a b _ (core_block pop a b)
  have h2 := extendRight_block a b _ h1.1
  exact ⟨h2.1, Nat.le_trans h1.2 h2.2⟩

/-- The block is at least as long as every common part without popular characters. -/
theorem longest_max (pop : α → Bool) (a b u : List α) (hu : ∀ c ∈ u, pop c = false) (ha : u <:+: a) (hb : u <:+: b) : u.length ≤ (longest pop a b).k := by
  refine Nat.le_trans ?_ (longest_block pop a b).2
  obtain ⟨a1, a2, rfl⟩ := ha
  obtain ⟨b1, b2, rfl⟩ := hb
  by_cases hn : u.length = 0
  · omega
  have hc := (core_top pop (a1 ++ u ++ a2) (b1 ++ u ++ b2)).1 (a1.length + u.length - 1) (b1.length + u.length - 1) (by simp; omega)
    (Or.inl (by simp; omega))
  refine Nat.le_trans ?_ hc
  simp only [cell]
  have e1 : a1.length + u.length - 1 + 1 = (a1 ++ u).length := by simp; omega
  have e2 : b1.length + u.length - 1 + 1 = (b1 ++ u).length := by simp; omega
  rw [e1, e2, List.take_left, List.take_left, List.reverse_append, List.reverse_append]
  have := le_run pop u.reverse a1.reverse b1.reverse (fun c hc => hu c (by simpa using hc))
  simpa using this

/-- The block of a string against itself is the whole string. -/
theorem longest_self (pop : α → Bool) (a : List α) : longest pop a a = ⟨0, 0, a.length⟩ := by
  have hd : (core pop a a).i = (core pop a a).j := by
    obtain ⟨_, h⟩ := core_top pop a a
    rcases h with h | ⟨i, j, hb, hj, hc, hp, e1, e2, hf⟩
    · rw [h]
    · have hij : i = j := by
        have hi : i < a.length := by rcases hb with hb | ⟨_, hb⟩ <;> omega
        rcases Nat.lt_trichotomy i j with hlt | heq | hgt
        · have h1 := hf i i (by omega) (Or.inr ⟨rfl, hlt⟩)
          have h2 := run_self_le pop (a.take (i + 1)).reverse (a.take (j + 1)).reverse
          simp only [cell] at h1 hc
          omega
        · exact heq
        · have h1 := hf j i hi (Or.inl hgt)
          have h2 := run_comm pop (a.take (i + 1)).reverse (a.take (j + 1)).reverse
          simp only [cell] at h1 hc
          omega
      rw [e1, e2, hij]
  obtain ⟨a1, u, a2, b1, b2, h1, h2, e1, e2, e3⟩ := core_block pop a a
  have hlen := congrArg List.length h1
  simp at hlen
  simp only [longest, extendLeft, extendRight]
  rw [← hd, agree_self]
  simp only [List.length_reverse, List.length_take]
  have em : min (core pop a a).i a.length = (core pop a a).i := by omega
  rw [em, agree_self]
  simp only [List.length_drop]
  have : (core pop a a).i - (core pop a a).i = 0 := by omega
  rw [this]
  congr 1
  omega

/-! ### The total -/

theorem matches_sublist (pop : α → Bool) (n : Nat) (a b : List α) : ∃ l : List α, l.Sublist a ∧ l.Sublist b ∧ l.length = matches' pop n a b := by
  induction n generalizing a b with
  | zero => exact ⟨[], List.nil_sublist _, List.nil_sublist _, rfl⟩
  | succ n ih =>
    simp only [matches']
    split
    · exact ⟨[], List.nil_sublist _, List.nil_sublist _, rfl⟩
    · obtain ⟨⟨a1, u, a2, b1, b2, h1, h2, e1, e2, e3⟩, _⟩ := longest_block pop a b
      have t1 : a.take (longest pop a b).i = a1 := by rw [← e1]; conv => lhs; rw [h1]; simp
      have t2 : b.take (longest pop a b).j = b1 := by rw [← e2]; conv => lhs; rw [h2]; simp
      have t3 : a.drop ((longest pop a b).i + (longest pop a b).k) = a2 := by
        rw [← e1, ← e3]; conv => lhs; rw [h1, List.drop_append]; simp
      have t4 : b.drop ((longest pop a b).j + (longest pop a b).k) = b2 := by
        rw [← e2, ← e3]; conv => lhs; rw [h2, List.drop_append]; simp
      obtain ⟨l1, p1, q1, r1⟩ := ih (a.take (longest pop a b).i) (b.take (longest pop a b).j)
      obtain ⟨l2, p2, q2, r2⟩ := ih (a.drop ((longest pop a b).i + (longest pop a b).k)) (b.drop ((longest pop a b).j + (longest pop a b).k))
      refine ⟨l1 ++ u ++ l2, ?_, ?_, ?_⟩
      · rw [t1] at p1; rw [t3] at p2
        have : (l1 ++ u ++ l2).Sublist (a1 ++ u ++ a2) := (p1.append (List.Sublist.refl u)).append p2
        rwa [← h1] at this
      · rw [t2] at q1; rw [t4] at q2
        have : (l1 ++ u ++ l2).Sublist (b1 ++ u ++ b2) := (q1.append (List.Sublist.refl u)).append q2
        rwa [← h2] at this
      · rw [List.length_append, List.length_append, r1, r2, e3]

theorem le_matches (pop : α → Bool) (n : Nat) (a b : List α) (hn : a.length ≤ n) : (longest pop a b).k ≤ matches' pop n a b := by
  cases n with
  | zero =>
    obtain ⟨⟨a1, u, a2, b1, b2, h1, h2, e1, e2, e3⟩, _⟩ := longest_block pop a b
    have := congrArg List.length h1
    simp at this
    omega
  | succ n =>
    simp only [matches']
    split <;> omega

end Verif.SeqMatch
