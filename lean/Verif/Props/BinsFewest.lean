import Verif.Props.KeyMatch

set_option linter.unusedSectionVars false
set_option linter.unusedSimpArgs false
set_option linter.unusedVariables false

/-!
# C273: `get_bins` uses as few bins as possible
-/

namespace Verif.KeyMatch

/-- How many further bins are opened when the open one has total `n`. -/
def more (upper : Int) : Int → List Nat → Nat
  | _, [] => 0
  | n, len :: ls => if n + len < upper then more upper (n + len) ls else 1 + more upper len ls

theorem more_bounds (upper : Int) : ∀ (ls : List Nat) (n m : Int), 0 ≤ m → (m ≤ n → more upper m ls ≤ more upper n ls) ∧ more upper n ls ≤ 1 + more upper m ls := by
  intro ls
  induction ls with
  | nil => intro n m _; simp [more]
  | cons len ls ih =>
    intro n m hm
    have hl : (0 : Int) ≤ len := Int.natCast_nonneg len
    simp only [more]
    by_cases h1 : n + len < upper <;> by_cases h2 : m + len < upper
    · rw [if_pos h1, if_pos h2]
      have := ih (n + len) (m + len) (by omega)
      exact ⟨fun h => this.1 (by omega), this.2⟩
    · rw [if_pos h1, if_neg h2]
      have := ih (n + len) len hl
      exact ⟨fun h => by omega, by omega⟩
    · rw [if_neg h1, if_pos h2]
      have a := ih (m + len) len hl
      exact ⟨fun _ => by omega, by have := a.1 (by omega); omega⟩
    · rw [if_neg h1, if_neg h2]
      exact ⟨fun _ => by omega, by omega⟩

theorem more_prefix (upper : Int) : ∀ (p : List Nat) (n : Int) (rest : List Nat), n + ((p.sum : Nat) : Int) < upper →
    more upper n (p ++ rest) = more upper (n + ((p.sum : Nat) : Int)) rest := by
  intro p
  induction p with
  | nil => intro n rest _; simp
  | cons len p ih =>
    intro n rest h
    simp only [List.sum_cons, Int.natCast_add] at h ⊢
    simp only [List.cons_append, more]
    have : (0 : Int) ≤ ((p.sum : Nat) : Int) := Int.natCast_nonneg _
    rw [if_pos (by omega), ih _ _ (by omega)]
    congr 1
    omega

/-- A part of a division: below the bound, a single item, or empty. -/
def Part (upper : Int) (p : List Nat) : Prop := ((p.sum : Nat) : Int) < upper ∨ p.length = 1 ∨ p = []

theorem more_le (upper : Int) : ∀ (parts : List (List Nat)) (n : Int), (∀ p ∈ parts, Part upper p) → more upper n parts.flatten ≤ parts.length := by
  intro parts
  induction parts with
  | nil => intro n _; simp [more]
  | cons p ps ih =>
    intro n hp
    have ih' := fun n => ih n (fun q hq => hp q (List.mem_cons_of_mem _ hq))
    simp only [List.flatten_cons, List.length_cons]
    rcases hp p List.mem_cons_self with h | h | h
    · have h1 := (more_bounds upper (p ++ ps.flatten) n 0 (by omega)).2
      rw [more_prefix upper p 0 _ (by omega)] at h1
      have := ih' (0 + ((p.sum : Nat) : Int))
      omega
    · obtain ⟨len, rfl⟩ := List.length_eq_one_iff.1 h
      simp only [List.singleton_append, more]
      have h1 := ih' (n + len)
      have h2 := ih' len
      split <;> omega
    · subst h
      simp only [List.nil_append]
      have := ih' n
      omega

theorem more_first (upper : Int) : ∀ (parts : List (List Nat)) (len : Nat) (ls : List Nat), (∀ p ∈ parts, Part upper p) → parts.flatten = len :: ls →
    1 + more upper len ls ≤ parts.length := by
  intro parts
  induction parts with
  | nil => intro len ls _ h; simp at h
  | cons p ps ih =>
    intro len ls hp h
    have hps : ∀ q ∈ ps, Part upper q := fun q hq => hp q (List.mem_cons_of_mem _ hq)
    cases p with
    | nil =>
      have := ih len ls hps (by simpa using h)
      simp only [List.length_cons]; omega
    | cons a p =>
      simp only [List.flatten_cons, List.cons_append, List.cons.injEq] at h
      obtain ⟨rfl, rfl⟩ := h
      simp only [List.length_cons]
      rcases hp _ List.mem_cons_self with h | h | h
      · simp only [List.sum_cons, Int.natCast_add] at h
        rw [more_prefix upper p a _ (by omega)]
        have := more_le upper ps (a + ((p.sum : Nat) : Int)) hps
        omega
      · simp only [List.length_cons, Nat.add_eq_right, List.length_eq_zero_iff] at h
        subst h
        have := more_le upper ps a hps
        simp only [List.nil_append]
        omega
      · cases h

theorem binLoop_count (upper : Int) : ∀ (ls : List Nat) (idx : Nat) (n : Int) (cur : List Nat) (bins : List (List Nat)), cur ≠ [] →
    ((binLoop upper ls idx n cur bins).filter (· ≠ [])).length = (bins.filter (· ≠ [])).length + 1 + more upper n ls := by
  intro ls
  induction ls with
  | nil =>
    intro idx n cur bins hc
    have : cur.isEmpty = false := by cases cur <;> simp_all
    simp [binLoop, this, List.filter_append, hc, more]
  | cons len ls ih =>
    intro idx n cur bins hc
    simp only [binLoop, more]
    split
    · rw [ih _ _ _ _ (by simp)]
    · rw [ih _ _ _ _ (by simp), List.filter_append]
      simp [hc]
      omega

theorem total_sum (lens : List Nat) : ∀ b : List Nat, total lens b = (((b.map (fun i => lens[i]?.getD 0)).sum : Nat) : Int) := by
  intro b
  induction b with
  | nil => simp [total]
  | cons i b ih =>
    simp only [total, List.map_cons, List.foldr_cons, List.sum_cons, Int.natCast_add] at ih ⊢
    rw [ih]

theorem range_lens (lens : List Nat) : (List.range lens.length).map (fun i => lens[i]?.getD 0) = lens := by
  apply List.ext_getElem
  · simp
  · intro i h1 h2
    simp [List.getElem?_eq_getElem h2]

/-- C273: whatever way the indices are divided in order into parts that are below the bound, single items or empty, `get_bins` has no more non-empty bins than there are parts. -/
theorem C273_fewest (lens : List Nat) (upper : Int) (parts : List (List Nat)) (hp : parts.flatten = List.range lens.length)
    (hf : ∀ b ∈ parts, total lens b < upper ∨ b.length = 1 ∨ b = []) :
    ((getBins lens upper).filter (· ≠ [])).length ≤ parts.length := by
  cases lens with
  | nil => simp [getBins, binLoop]
  | cons len ls =>
    have hcount : ((getBins (len :: ls) upper).filter (· ≠ [])).length = 1 + more upper len ls := by
      simp only [getBins, binLoop]
      split
      · rw [binLoop_count _ _ _ _ _ _ (by simp)]; simp
      · rw [binLoop_count _ _ _ _ _ _ (by simp)]; simp
    rw [hcount]
    have hfl : (parts.map (fun b => b.map (fun i => (len :: ls)[i]?.getD 0))).flatten = len :: ls := by
      rw [← List.map_flatten, hp, range_lens]
    have := more_first upper (parts.map (fun b => b.map (fun i => (len :: ls)[i]?.getD 0))) len ls (fun p hpm => by
      obtain ⟨b, hb, rfl⟩ := List.mem_map.1 hpm
      rcases hf b hb with h | h | h
      · exact .inl (by rw [← total_sum]; exact h)
      · exact .inr (.inl (by simpa using h))
      · exact .inr (.inr (by simp [h]))) hfl
    simpa using this

/-- Four bins, as few as any division with an oversized item and a full bin needs. -/
example : ((getBins [1, 1, 4, 1, 1, 2] 4).filter (· ≠ [])).length = 4 ∧ ([[0, 1], [2], [3, 4], [5]] : List (List Nat)).flatten = List.range 6 ∧
    ∀ b ∈ ([[0, 1], [2], [3, 4], [5]] : List (List Nat)), total [1, 1, 4, 1, 1, 2] b < 4 ∨ b.length = 1 ∨ b = [] := by decide

end Verif.KeyMatch
