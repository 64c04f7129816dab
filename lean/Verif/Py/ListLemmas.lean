/-! # Generic list lemmas -/

namespace Verif

theorem filterMap_congr' {f g : α → Option β} {l : List α} (h : ∀ a ∈ l, f a = g a) :
    l.filterMap f = l.filterMap g := by
  induction l with
  | nil => rfl
  | cons a l ih =>
    simp only [List.filterMap_cons, h a (by simp)]
    rw [ih (fun b hb => h b (by simp [hb]))]

/-- A duplicate-free list inside another of at most its length is a permutation of it. -/
theorem perm_of_nodup_subset [DecidableEq α] {l m : List α} (hn : l.Nodup) (hs : l ⊆ m) (hl : m.length ≤ l.length) : List.Perm l m := by
  induction l generalizing m with
  | nil => rw [List.length_eq_zero_iff.1 (Nat.le_zero.1 hl)]
  | cons a l ih =>
    rw [List.nodup_cons] at hn
    have ha : a ∈ m := hs (by simp)
    have hp := List.perm_cons_erase ha
    have hlen : (m.erase a).length = m.length - 1 := List.length_erase_of_mem ha
    refine (List.Perm.cons a (ih hn.2 ?_ ?_)).trans hp.symm
    · intro x hx
      have hxm : x ∈ m := hs (by simp [hx])
      have hne : x ≠ a := fun e => hn.1 (e ▸ hx)
      exact (List.mem_erase_of_ne hne).2 hxm
    · rw [hlen]; simp only [List.length_cons] at hl; omega

theorem length_le_of_nodup_subset [DecidableEq α] {l m : List α} (hn : l.Nodup) (hs : l ⊆ m) : l.length ≤ m.length := by
  rcases Nat.le_total l.length m.length with h | h
  · exact h
  · exact Nat.le_of_eq (perm_of_nodup_subset hn hs h).length_eq

end Verif
